import Verif.Opt.Coherence
import Verif.Transform.Props

/-!
# Properties of the optimiser's view (C29 - C34, C49)
-/

set_option linter.unusedSectionVars false

namespace Paramz.Opt

open IndexOps (Arr lookup)
open Hier (Heap Con Id upd upd_same upd_ne)
open Hier.Heap (Target Reach Same Ctx Covers)
open Hier.Graph (Anc At)

variable {V T : Type} [DecidableEq T]

/-! ### A model for the examples -/

/-- Transformations of the examples: `n` adds `n`. -/
def demoOps : Ops Int Nat where
  f t x := x + t
  finv t v := v - t
  gradfactor t _ d := d * t
  init t v := max v t

/-- The model of `Hier.Check`: element 1 is constrained to `7`, elements 2 to 4 to `8`, elements 4, 6, 7
are fixed. -/
def demo : State Int Nat where
  heap := Hier.Heap.demo
  root := 0
  vals := [10, 11, 12, 13, 14, 15, 16, 17]
  grad := [1, 2, 3, 4, 5, 6, 7, 8]
  copy := none
  fresh := false
  on := true

theorem demo_ready : Ready demo where
  reach := Hier.Heap.demo_reach
  lt := by decide +kernel
  root := by decide +kernel
  node := by decide +kernel
  inInit := by decide +kernel
  inited := by decide +kernel
  vals := by decide +kernel

/-! ### C29 -/

/-- C29: a read after a change lists exactly the free elements in order, each sent through `finv` of its
transformation. -/
theorem read_lists_free (o : Ops V T) {s : State V T} (r : Ready s) (hf : s.fresh = false) (junk : List V) :
    ListsFree o s (s.readOpt o junk).2 := readOpt_lists r (coherent_of_stale hf) junk

/-- The size reported to optimisers and to `randomize` is the length of that list. -/
theorem size_transformed_exact {s : State V T} (r : Ready s) : s.sizeTransformed = (free s).length :=
  (free_length r).symm

example : free demo = [0, 1, 2, 3, 5] ∧ (demo.readOpt demoOps []).2 = [10, 4, 4, 5, 15] := by decide +kernel

/-! ### C30 -/

/-- Values after the setter. -/
theorem setVals_held (o : Ops V T) {s : State V T} (r : Held s)
    (hmk : s.setterMask = if s.hasFixes then some (Heap.maskOf s.size (s.cons .fixed)) else none) (p : List V) :
    (s.setVals o p).length = s.size ∧
    (∀ i, i ∈ s.cons .fixed → (s.setVals o p)[i]? = s.vals[i]?) ∧
    (p.length = (free s).length → ∀ k i : Nat, (free s)[k]? = some i → ∃ x w, p[k]? = some x ∧
      (s.setVals o p)[i]? = some w ∧ Via s o.f i x w) := by
  set m := Heap.maskOf s.size (s.cons .fixed) with hm
  have hmask : s.setterMask.getD (List.replicate s.vals.length true) = m := by
    rw [hmk]
    cases hf : s.hasFixes with
    | true => rw [if_pos rfl]; rfl
    | false =>
      have : s.cons .fixed = [] := by simpa [State.hasFixes] using hf
      rw [if_neg (by simp), hm, this, r.vals, replicate_eq_maskOf]; rfl
  have hwr : ∀ (ind : Arr) (i : Nat), i < s.size →
      (i ∈ written s.setterMask ind ↔ i ∈ ind ∧ i ∉ s.cons .fixed) := by
    intro ind i hi
    rw [hmk]
    unfold written
    cases hf : s.hasFixes with
    | true =>
      rw [if_pos rfl]
      simp only [List.mem_filter]
      refine and_congr_right (fun _ => ?_)
      rw [List.getD_eq_getElem?_getD, hm, Heap.maskOf, List.getElem?_map, List.getElem?_range hi]
      simp
    | false =>
      have : s.cons .fixed = [] := by simpa [State.hasFixes] using hf
      rw [if_neg (by simp)]
      simp [this]
  obtain ⟨h1, h2⟩ := fAll_spec o s.setterMask (its := s.items) (a := assign s.vals m p)
    (by rw [assign_length, r.vals]; exact r.items_bound) r.items_disjoint
  have hsv : s.setVals o p = fAll o s.setterMask s.items (assign s.vals m p) := by
    unfold State.setVals; rw [hmask]
  rw [hsv]
  refine ⟨by rw [h1, assign_length, r.vals], fun i hi => ?_, fun hp k i hk => ?_⟩
  · have hlt := r.bound hi
    rw [(h2 i).2 (fun t ind _ hw => ((hwr ind i hlt).mp hw).2 hi), getElem?_assign_other]
    rw [hm, Ne, getElem?_maskOf]
    exact fun h => h.2 hi
  · have hfree := mem_free.mp (List.mem_of_getElem? hk)
    have hkp : k < p.length := by rw [hp]; exact (List.getElem?_eq_some_iff.mp hk).1
    have hass : (assign s.vals m p)[i]? = p[k]? := by
      apply getElem?_assign_through
      · rw [hm, maskOf_length, r.vals]
      · rw [hp, free_eq]
      · rw [← free_eq]; exact hk
    have hx : p[k]? = some p[k] := List.getElem?_eq_getElem hkp
    by_cases h : ∃ t, i ∈ s.cons (.tr t)
    · obtain ⟨t, ht⟩ := h
      refine ⟨p[k], o.f t p[k], hx, ?_, fun u hu => by rw [r.single hu ht], fun hn => absurd ht (hn t)⟩
      rw [(h2 i).1 t _ (r.mem_items_of ht) ((hwr _ i hfree.1).mpr ⟨ht, hfree.2⟩), hass, hx]; rfl
    · have h : ∀ t, i ∉ s.cons (.tr t) := fun t ht => h ⟨t, ht⟩
      refine ⟨p[k], p[k], hx, ?_, fun t ht => absurd ht (h t), fun _ => rfl⟩
      rw [(h2 i).2 (fun t ind he hw => ?_), hass, hx]
      have := ((hwr ind i hfree.1).mp hw).1
      rw [(r.mem_items.mp he).1] at this
      exact h t this

/-- The same for a model. -/
theorem setVals_spec (o : Ops V T) {s : State V T} (r : Ready s) (p : List V) :
    (s.setVals o p).length = s.size ∧
    (∀ i, i ∈ s.cons .fixed → (s.setVals o p)[i]? = s.vals[i]?) ∧
    (p.length = (free s).length → ∀ k i : Nat, (free s)[k]? = some i → ∃ x w, p[k]? = some x ∧
      (s.setVals o p)[i]? = some w ∧ Via s o.f i x w) := setVals_held o r r.setterMask_eq p

/-- C30: setting `optimizer_array` (to a vector of any length) leaves every fixed element as it is. -/
theorem set_keeps_fixed (o : Ops V T) (g : List V → List V) {s : State V T} (r : Ready s) (p : List V)
    {i : Nat} (hi : i ∈ s.cons .fixed) : (s.setOpt o g p).vals[i]? = s.vals[i]? := by
  simpa [State.setOpt] using (setVals_spec o r p).2.1 i hi

/-- C30: with a vector of the right length the `k`-th free element becomes `f` of the `k`-th entry (the
entry itself if the element is unconstrained). -/
theorem set_writes_free (o : Ops V T) (g : List V → List V) {s : State V T} (r : Ready s) {p : List V}
    (hp : p.length = (free s).length) {k i : Nat} (hk : (free s)[k]? = some i) :
    ∃ x w, p[k]? = some x ∧ (s.setOpt o g p).vals[i]? = some w ∧ Via s o.f i x w := by
  simpa [State.setOpt] using (setVals_spec o r p).2.2 hp k i hk

example : (demo.setOpt demoOps id [20, 21, 22, 23, 24]).vals = [20, 28, 30, 31, 14, 24, 16, 17] := by
  decide +kernel

/-- Floats: `none` is a value that is not a finite number. -/
noncomputable def floatOps (sem : T → Transform.Tr) : Ops (Option ℝ) T where
  f t x := x.map (sem t).f
  finv t v := v.bind (sem t).finv
  gradfactor t v d := v.bind (fun v => d.bind ((sem t).gradfactor v))
  init t v := v.map (sem t).init

/-- C30: a free constrained element ends up inside the domain of its transformation, whatever finite
number the optimiser asked for. -/
theorem set_in_domain (sem : T → Transform.Tr) (hsem : ∀ t, (sem t).Valid)
    (g : List (Option ℝ) → List (Option ℝ)) {s : State (Option ℝ) T} (r : Ready s) {p : List (Option ℝ)}
    (hp : p.length = (free s).length) {k i : Nat} (hk : (free s)[k]? = some i) {t : T}
    (ht : i ∈ s.cons (.tr t)) {x : ℝ} (hx : p[k]? = some (some x)) :
    ∃ v, (s.setOpt (floatOps sem) g p).vals[i]? = some (some v) ∧ v ∈ Transform.Dom (sem t) := by
  obtain ⟨x', w, h1, h2, h3⟩ := set_writes_free (floatOps sem) g r hp hk
  rw [hx] at h1; cases h1
  refine ⟨(sem t).f x, ?_, Transform.transformed_in_domain _ (hsem t) x⟩
  rw [h2, h3.1 t ht]; rfl

/-! ### C31 -/

theorem setOpt_ready (o : Ops V T) (g : List V → List V) {s : State V T} (r : Ready s) (p : List V) :
    Ready (s.setOpt o g p) := exec_ready (e := .set p) r trivial

theorem readOpt_ready (o : Ops V T) {s : State V T} (r : Ready s) (junk : List V) :
    Ready (s.readOpt o junk).1 := exec_ready (e := .read junk) (g := id) r trivial

theorem setOpt_cons (o : Ops V T) (g : List V → List V) (s : State V T) (p : List V) (c : Con T) :
    (s.setOpt o g p).cons c = s.cons c := by simp [State.cons, State.setOpt]

theorem setOpt_size (o : Ops V T) (g : List V → List V) (s : State V T) (p : List V) :
    (s.setOpt o g p).size = s.size := by simp [State.size, State.setOpt]

/-- C31: a vector that was set is read back, if every entry of a constrained element survives
`finv (f x)`. -/
theorem set_then_read (o : Ops V T) (g : List V → List V) {s : State V T} (r : Ready s) {p junk : List V}
    (hp : p.length = (free s).length)
    (hinv : ∀ (k i : Nat) t x, (free s)[k]? = some i → i ∈ s.cons (.tr t) → p[k]? = some x →
      o.finv t (o.f t x) = x) :
    ((s.setOpt o g p).readOpt o junk).2 = p := by
  have r' := setOpt_ready o g r p
  have hl := readOpt_lists r' (coherent_of_stale (o := o) (by simp [State.setOpt, notify_fresh])) junk
  have hfree : free (s.setOpt o g p) = free s := by
    unfold free; rw [setOpt_cons, setOpt_size]
  apply List.ext_getElem?
  intro k
  by_cases hk : k < (free s).length
  · have hk' := List.getElem?_eq_getElem hk
    obtain ⟨v, w, hv, hw, hvia⟩ := hl.2.2 k _ ((congrArg (·[k]?) hfree).trans hk')
    obtain ⟨x, v', hx, hv', hvia'⟩ := set_writes_free o g r hp hk'
    rw [hv] at hv'; cases hv'
    rw [hw, hx]
    congr 1
    by_cases h : ∃ t, (free s)[k] ∈ s.cons (.tr t)
    · obtain ⟨t, ht⟩ := h
      rw [hvia.1 t (by rw [setOpt_cons]; exact ht), hvia'.1 t ht]
      exact hinv k _ t x hk' ht hx
    · have h : ∀ t, (free s)[k] ∉ s.cons (.tr t) := fun t ht => h ⟨t, ht⟩
      rw [hvia.2 (fun t => by rw [setOpt_cons]; exact h t), hvia'.2 h]
  · rw [List.getElem?_eq_none (by rw [hl.2.1, hfree]; omega), List.getElem?_eq_none (by omega)]

/-- C31: writing back what was read changes no value, if every value of a free constrained element
survives `f (finv v)`. -/
theorem read_then_set (o : Ops V T) (g : List V → List V) {s : State V T} (r : Ready s) (hc : Coherent o s)
    (junk : List V)
    (hinv : ∀ i t v, i ∈ free s → i ∈ s.cons (.tr t) → s.vals[i]? = some v → o.f t (o.finv t v) = v) :
    ((s.readOpt o junk).1.setOpt o g (s.readOpt o junk).2).vals = s.vals := by
  have hl := readOpt_lists r hc junk
  have hst := readOpt_state (o := o) r junk
  have r1 := readOpt_ready o r junk
  have hcons : ∀ c, (s.readOpt o junk).1.cons c = s.cons c := fun c => by rw [hst]; rfl
  have hsize : (s.readOpt o junk).1.size = s.size := by rw [hst]; rfl
  have hvals : (s.readOpt o junk).1.vals = s.vals := by rw [hst]
  have hfree : free (s.readOpt o junk).1 = free s := by unfold free; rw [hcons, hsize]
  obtain ⟨h1, h2, h3⟩ := setVals_spec o r1 (s.readOpt o junk).2
  have hsv : ((s.readOpt o junk).1.setOpt o g (s.readOpt o junk).2).vals =
      (s.readOpt o junk).1.setVals o (s.readOpt o junk).2 := by simp [State.setOpt]
  rw [hsv]
  apply List.ext_getElem?
  intro i
  by_cases hi : i < s.size
  · by_cases hfx : i ∈ s.cons .fixed
    · rw [h2 i (by rw [hcons]; exact hfx), hvals]
    · obtain ⟨k, hk⟩ := List.mem_iff_getElem?.mp (mem_free.mpr ⟨hi, hfx⟩)
      obtain ⟨v, w, hv, hw, hvia⟩ := hl.2.2 k i hk
      obtain ⟨x, v', hx, hv', hvia'⟩ := h3 (by rw [hl.2.1, hfree]) k i (hfree ▸ hk)
      rw [hw] at hx; cases hx
      rw [hv', hv]
      congr 1
      by_cases h : ∃ t, i ∈ s.cons (.tr t)
      · obtain ⟨t, ht⟩ := h
        rw [hvia'.1 t (by rw [hcons]; exact ht), hvia.1 t ht]
        exact hinv i t v (mem_free.mpr ⟨hi, hfx⟩) ht hv
      · have h : ∀ t, i ∉ s.cons (.tr t) := fun t ht => h ⟨t, ht⟩
        rw [hvia'.2 (fun t => by rw [hcons]; exact h t), hvia.2 h]
  · rw [List.getElem?_eq_none (by omega), List.getElem?_eq_none (by rw [r.vals]; omega)]

/-- Optimiser values within the limits of C17. -/
structure WithinC17 (t : Transform.Tr) (x : ℝ) : Prop where
  valid : t.Valid
  ne : t ≠ .negExponent
  square : t = .square → 0 ≤ x
  limits : Transform.InLimits t x
  off : Transform.OffBounds t x
  noSwitch : ¬ Transform.AtSwitch t x

/-- Model values within the limits of C16. -/
structure WithinC16 (t : Transform.Tr) (v : ℝ) : Prop where
  ne : t ≠ .negExponent
  dom : v ∈ Transform.Dom t
  limits : Transform.InModelLimits t v

/-- C31 (partial) for the transformations of the package, first half: a vector within the limits of C17
is read back exactly. Missing: what is missing in C17 (`NegativeExponent`, negative values of `Square`,
for which the transformations themselves do not round trip). -/
theorem set_then_read_float_partial (sem : T → Transform.Tr) (g : List (Option ℝ) → List (Option ℝ))
    {s : State (Option ℝ) T} (r : Ready s) {p junk : List (Option ℝ)} (hp : p.length = (free s).length)
    (hlim : ∀ (k i : Nat) t, (free s)[k]? = some i → i ∈ s.cons (.tr t) →
      ∃ x, p[k]? = some (some x) ∧ WithinC17 (sem t) x) :
    ((s.setOpt (floatOps sem) g p).readOpt (floatOps sem) junk).2 = p := by
  refine set_then_read _ g r hp (fun k i t x hk ht hx => ?_)
  obtain ⟨y, hy, l⟩ := hlim k i t hk ht
  rw [hx] at hy; cases hy
  obtain ⟨z, hz, -, he⟩ := Transform.finv_f_partial (sem t) l.valid l.ne y l.square l.limits l.off
  show ((some ((sem t).f y)).bind (sem t).finv) = some y
  rw [Option.bind_some, hz, he l.noSwitch]

/-- C31 (partial) for the transformations of the package, second half: values within the limits of C16
are kept exactly when what was read is written back. Missing: `NegativeExponent`, as in C16. -/
theorem read_then_set_float_partial (sem : T → Transform.Tr) (g : List (Option ℝ) → List (Option ℝ))
    {s : State (Option ℝ) T} (r : Ready s) (hc : Coherent (floatOps sem) s) (junk : List (Option ℝ))
    (hlim : ∀ i t, i ∈ free s → i ∈ s.cons (.tr t) → ∃ v, s.vals[i]? = some (some v) ∧ WithinC16 (sem t) v) :
    ((s.readOpt (floatOps sem) junk).1.setOpt (floatOps sem) g (s.readOpt (floatOps sem) junk).2).vals =
      s.vals := by
  refine read_then_set _ g r hc junk (fun i t v hi ht hv => ?_)
  obtain ⟨y, hy, l⟩ := hlim i t hi ht
  rw [hv] at hy; cases hy
  obtain ⟨x, hx, he⟩ := Transform.f_finv_partial (sem t) l.ne y l.dom l.limits
  show ((some y).bind (sem t).finv).map (sem t).f = some y
  rw [Option.bind_some, hx, Option.map_some, he]

/-- At the switch point of `Logexp` (36) the entry is read back up to 2.4e-16. -/
theorem set_then_read_close_partial (sem : T → Transform.Tr) (g : List (Option ℝ) → List (Option ℝ))
    {s : State (Option ℝ) T} (r : Ready s) {p junk : List (Option ℝ)} (hp : p.length = (free s).length)
    {k i : Nat} (hk : (free s)[k]? = some i) {t : T} (ht : i ∈ s.cons (.tr t)) {x : ℝ}
    (hx : p[k]? = some (some x)) (hv : (sem t).Valid) (hne : sem t ≠ .negExponent)
    (hsq : sem t = .square → 0 ≤ x) (hlim : Transform.InLimits (sem t) x)
    (hoff : Transform.OffBounds (sem t) x) :
    ∃ z, ((s.setOpt (floatOps sem) g p).readOpt (floatOps sem) junk).2[k]? = some (some z) ∧
      |z - x| < 2.4e-16 := by
  have r' := setOpt_ready (floatOps sem) g r p
  have hl := readOpt_lists r' (coherent_of_stale (o := floatOps sem) (by simp [State.setOpt, notify_fresh])) junk
  have hfree : free (s.setOpt (floatOps sem) g p) = free s := by
    unfold free; rw [setOpt_cons, setOpt_size]
  obtain ⟨v, w, hv', hw, hvia⟩ := hl.2.2 k i ((congrArg (·[k]?) hfree).trans hk)
  obtain ⟨x', v', hx', hv'', hvia'⟩ := set_writes_free (floatOps sem) g r hp hk
  rw [hv'] at hv''; cases hv''
  rw [hx] at hx'; cases hx'
  obtain ⟨z, hz, hc, -⟩ := Transform.finv_f_partial (sem t) hv hne x hsq hlim hoff
  refine ⟨z, ?_, hc⟩
  rw [hw, hvia.1 t (by rw [setOpt_cons]; exact ht), hvia'.1 t ht]
  show some ((some ((sem t).f x)).bind (sem t).finv) = some (some z)
  rw [Option.bind_some, hz]

/-- The model of the examples with real values, constrained to be positive. -/
noncomputable def demoReal : State (Option ℝ) Nat :=
  { demo with vals := List.replicate 8 (some 1), grad := List.replicate 8 (some 1), copy := none }

theorem demoReal_ready : Ready demoReal :=
  ⟨⟨Hier.Heap.demo_reach, demo_ready.lt, demo_ready.vals⟩, demo_ready.root, demo_ready.node, demo_ready.inInit,
    demo_ready.inited⟩

/-- A concrete vector meeting the hypotheses of both halves. -/
example : WithinC17 .exponent (2 : ℝ) ∧ WithinC16 .exponent (1 : ℝ) ∧
    ((demoReal.setOpt (floatOps (fun _ => .exponent)) id (List.replicate 5 (some 2))).readOpt
      (floatOps (fun _ => .exponent)) []).2 = List.replicate 5 (some 2) := by
  have h : WithinC17 .exponent (2 : ℝ) :=
    ⟨trivial, by simp, by simp, ⟨by norm_num [Transform.lim], by norm_num [Transform.lim]⟩, trivial, id⟩
  refine ⟨h, ⟨by simp, by simp [Transform.Dom], ?_, ?_⟩, ?_⟩
  · rw [Real.exp_le_one_iff]; norm_num [Transform.lim]
  · rw [Real.one_le_exp_iff]; norm_num [Transform.lim]
  · have hfree : free demoReal = [0, 1, 2, 3, 5] := show free demo = _ by decide +kernel
    refine set_then_read_float_partial _ _ demoReal_ready (by rw [hfree]; rfl) (fun k i t hk _ => ⟨2, ?_, h⟩)
    have : k < 5 := by
      have := (List.getElem?_eq_some_iff.mp hk).1
      rwa [hfree] at this
    rw [List.getElem?_replicate, if_pos this]

example : ((demo.setOpt demoOps id [20, 21, 22, 23, 24]).readOpt demoOps []).2 = [20, 21, 22, 23, 24] ∧
    ((demo.readOpt demoOps []).1.setOpt demoOps id (demo.readOpt demoOps []).2).vals = demo.vals := by
  decide +kernel

/-! ### C32 -/

/-- C32 (partial). After any history of calls on a new model, a read shows the values, constraints and
fixes at the time of reading, unless a change has gone unannounced since the last announced one.
Missing: unannounced changes, for which it is false (`stale_after_unconstrain_fails`,
`stale_with_updates_off_fails`, `stale_after_link_fails`). -/
theorem never_stale_partial (o : Ops V T) (g : List V → List V) {s s' : State V T} (r : Ready s)
    (hf : s.fresh = false) (hh : History o g s false s' false) (junk : List V) :
    ListsFree o s' (s'.readOpt o junk).2 :=
  readOpt_lists (history_ready hh r) (history_coherent hh r (fun _ => coherent_of_stale hf) rfl) junk

/-- Switching updates on announces everything. -/
theorem update_on_refreshes (o : Ops V T) (g : List V → List V) {s : State V T} (r : Ready s) (junk : List V) :
    ListsFree o (s.updateModel g true) ((s.updateModel g true).readOpt o junk).2 :=
  read_lists_free o (exec_ready (o := o) (g := g) (e := .updateModel true) r trivial)
    (by show ((({ s with on := true } : State V T)).notify g).fresh = false; rw [notify_fresh]; rfl) junk

/-- After `unconstrain` the array is still the one for the old constraint. -/
theorem stale_after_unconstrain_fails :
    let s := ((demo.readOpt demoOps []).1.unconstrain ⟨1, none⟩ [])
    (s.readOpt demoOps []).2 = [10, 4, 4, 5, 15] ∧ s.cons (.tr 7) = [] ∧ s.vals[1]? = some 11 ∧
    ¬ ListsFree demoOps s (s.readOpt demoOps []).2 := by
  intro s
  refine ⟨by decide +kernel, by decide +kernel, by decide +kernel, ?_⟩
  rintro ⟨-, -, h⟩
  obtain ⟨v, w, h1, h2, h3⟩ := h 1 1 (by decide +kernel)
  have e1 : s.vals[1]? = some 11 := by decide +kernel
  have e2 : (s.readOpt demoOps []).2[1]? = some 4 := by decide +kernel
  rw [e1] at h1; rw [e2] at h2
  cases h1; cases h2
  have := h3.2 (fun t ht => by
    have h7 : s.cons (.tr 7) = [] := by decide +kernel
    have h8 : 1 ∉ s.cons (.tr 8) := by decide +kernel
    have hi : s.items.all (fun e => decide (e.1 = .fixed) || decide (1 ∉ e.2)) = true := by decide +kernel
    have hrdy : Ready s := exec_ready (o := demoOps) (g := id) (e := .unconstrain ⟨1, none⟩ [])
      (readOpt_ready demoOps demo_ready []) ⟨Hier.Heap.targetOKB_sound (by decide +kernel),
        .step .refl (by decide +kernel)⟩
    have := List.all_eq_true.mp hi _ (hrdy.mem_items_of ht)
    simp [ht] at this)
  exact absurd this (by decide)

/-- With updates off, a change of a parameter is not seen by the second read. -/
theorem stale_with_updates_off_fails :
    let s := (((demo.updateModel id false).readOpt demoOps []).1.write id ⟨1, none⟩ [50, 51])
    (s.readOpt demoOps []).2 = [10, 4, 4, 5, 15] ∧ s.vals[0]? = some 50 := by decide +kernel

/-- After linking a further parameter the array is uninitialised memory: the stored copy has the wrong
size but still counts as up to date. -/
theorem stale_after_link_fails (a b c d e f : Int) :
    let h := (Hier.Heap.demo.newParam 1).exec (.link 0 6 none)
    let s := (demo.readOpt demoOps []).1.restructure h.1 (demo.vals ++ [18]) (demo.grad ++ [9])
    h.2 = none ∧ s.size = 9 ∧
    (s.readOpt demoOps [a, b, c, d, 0, e, 0, 0, f]).2 = [a, b, c, d, e, f] := by
  intro h s
  have h1 : s.fresh = true ∧ s.hasFixes = true ∧ s.copy.map List.length = some 8 ∧ s.size = 9 ∧ h.2 = none ∧
      s.heap.ensureFixes s.root = [true, true, true, true, false, true, false, false, true] := by decide +kernel
  obtain ⟨e1, e2, e3, e4, e5, e6⟩ := h1
  refine ⟨e5, e4, ?_⟩
  unfold State.readOpt State.buffer
  rw [e1, e2]
  cases hc : s.copy with
  | none => rw [hc] at e3; cases e3
  | some cc =>
    rw [hc] at e3
    have : cc.length ≠ s.size := by
      have : cc.length = 8 := by simpa using e3
      omega
    simp only [if_true, if_neg this]
    show select _ (s.heap.ensureFixes s.root) = _
    rw [e6]; rfl

/-- Without fixes the array handed out is the model's own copy: writing into it changes what the next
read returns although no parameter has changed. -/
theorem returned_array_shared_fails :
    let s := demo.unfix ⟨0, none⟩
    let s1 := (s.readOpt demoOps []).1.scribble [0, 0, 0, 0, 0, 0, 0, 0]
    s1.vals = s.vals ∧ (s1.readOpt demoOps []).2 = [0, 0, 0, 0, 0, 0, 0, 0] := by decide +kernel

/-! ### C33 -/

theorem transform_spec (o : Ops V T) {s : State V T} (r : Ready s) {g : List V} (hg : g.length = s.size) :
    (s.transformGradients o g).1.length = s.size ∧
    (∀ (i : Nat) v d, s.vals[i]? = some v → g[i]? = some d → ∃ w, (s.transformGradients o g).1[i]? = some w ∧
      Via s (fun t => o.gradfactor t v) i d w) ∧
    (s.transformGradients o g).2 = pick (s.transformGradients o g).1 (free s) := by
  obtain ⟨h1, h2⟩ := gradAll_spec o (its := s.items) (vals := s.vals) (g := g) (by rw [r.vals, hg])
    (by rw [hg]; exact r.items_bound) r.items_disjoint
  have e1 : (s.transformGradients o g).1 = gradAll o s.items s.vals g := rfl
  refine ⟨by rw [e1, h1, hg], fun i v d hv hd => ?_, ?_⟩
  · rw [e1]
    by_cases h : ∃ t, i ∈ s.cons (.tr t)
    · obtain ⟨t, ht⟩ := h
      refine ⟨o.gradfactor t v d, ?_, fun u hu => by rw [r.single hu ht], fun hn => absurd ht (hn t)⟩
      rw [(h2 i).1 t _ (r.mem_items_of ht) ht, hv, hd]; rfl
    · have h : ∀ t, i ∉ s.cons (.tr t) := fun t ht => h ⟨t, ht⟩
      exact ⟨d, by rw [(h2 i).2 (r.trans_iff.mpr h), hd], fun t ht => absurd ht (h t), fun _ => rfl⟩
  · simp only [State.transformGradients]
    have hl := h1.trans hg
    cases hf : s.hasFixes with
    | true =>
      rw [if_pos rfl, r.mask hf, Option.getD_some, select_eq _ _ (by rw [hl, maskOf_length]), free_eq]
    | false =>
      rw [if_neg (by simp), free_of_no_fixes hf, ← hl]
      apply List.ext_getElem?
      intro i
      rw [getElem?_pick (by simp)]
      by_cases hi : i < (gradAll o s.items s.vals g).length
      · rw [List.getElem?_range hi]; rfl
      · rw [List.getElem?_eq_none (by omega), List.getElem?_eq_none (l := List.range _) (by simpa using hi)]; rfl

/-- C33, first half: the gradient handed to the optimiser has one entry per free element, in order:
`gradfactor` of its transformation at its value, applied to the model's gradient (the gradient itself if
the element is unconstrained). -/
theorem gradient_lists_free_partial (o : Ops V T) {s : State V T} (r : Ready s) (hg : s.grad.length = s.size) :
    (s.optGrad o).2.length = (free s).length ∧
    ∀ k i : Nat, (free s)[k]? = some i → ∃ v d w, s.vals[i]? = some v ∧ s.grad[i]? = some d ∧
      (s.optGrad o).2[k]? = some w ∧ Via s (fun t => o.gradfactor t v) i d w := by
  obtain ⟨h1, h2, h3⟩ := transform_spec o r hg
  have e : (s.optGrad o).2 = (s.transformGradients o s.grad).2 := rfl
  have hb : ∀ j ∈ free s, j < (s.transformGradients o s.grad).1.length :=
    fun j hj => by rw [h1]; exact (mem_free.mp hj).1
  rw [e, h3]
  refine ⟨pick_length hb, fun k i hk => ?_⟩
  have hi := (mem_free.mp (List.mem_of_getElem? hk)).1
  have hv := List.getElem?_eq_getElem (show i < s.vals.length by rw [r.vals]; exact hi)
  have hd := List.getElem?_eq_getElem (show i < s.grad.length by rw [hg]; exact hi)
  obtain ⟨w, hw, hvia⟩ := h2 i _ _ hv hd
  exact ⟨_, _, w, hv, hd, by rw [getElem?_pick hb, hk]; exact hw, hvia⟩

/-- Second half of C33 fails: computing it replaces the model's own gradient of every constrained element
(fixed ones too) by the transformed one. -/
theorem gradient_changed_fails (o : Ops V T) {s : State V T} (r : Ready s) (hg : s.grad.length = s.size)
    {i : Nat} {t : T} (ht : i ∈ s.cons (.tr t)) :
    ∃ v d, s.vals[i]? = some v ∧ s.grad[i]? = some d ∧
      (s.optGrad o).1.grad[i]? = some (o.gradfactor t v d) := by
  obtain ⟨-, h2, -⟩ := transform_spec o r hg
  have hi := r.bound ht
  have hv := List.getElem?_eq_getElem (show i < s.vals.length by rw [r.vals]; exact hi)
  have hd := List.getElem?_eq_getElem (show i < s.grad.length by rw [hg]; exact hi)
  obtain ⟨w, hw, hvia⟩ := h2 i _ _ hv hd
  exact ⟨_, _, hv, hd, hw.trans (congrArg some (hvia.1 t ht))⟩

/-- So asking twice gives two different answers. -/
theorem gradient_twice_fails :
    (demo.optGrad demoOps).2 = [1, 14, 24, 32, 6] ∧
    ((demo.optGrad demoOps).1.optGrad demoOps).2 = [1, 98, 192, 256, 6] := by decide +kernel

/-- What an optimiser sees when it asks for the gradient at `x` with updates on (model.py:235-238): the
setter makes the model compute its gradient anew, so the answer is the chain rule applied to that one,
whatever happened before. -/
theorem gradient_at_point (o : Ops V T) (g : List V → List V) {s : State V T} (r : Ready s) (hon : s.on = true)
    (hg : ∀ a, (g a).length = a.length) (p : List V) :
    ((s.setOpt o g p).optGrad o).2.length = (free s).length ∧
    ∀ k i : Nat, (free s)[k]? = some i → ∃ v d w, (s.setOpt o g p).vals[i]? = some v ∧
      (g (s.setOpt o g p).vals)[i]? = some d ∧ ((s.setOpt o g p).optGrad o).2[k]? = some w ∧
      Via s (fun t => o.gradfactor t v) i d w := by
  have r' := setOpt_ready o g r p
  have hgr : (s.setOpt o g p).grad = g (s.setOpt o g p).vals := by
    simp [State.setOpt, State.notify, hon]
  have hfree : free (s.setOpt o g p) = free s := by
    unfold free; rw [setOpt_cons, setOpt_size]
  obtain ⟨h1, h2⟩ := gradient_lists_free_partial o r' (by rw [hgr, hg, r'.vals])
  rw [hfree] at h1 h2
  refine ⟨h1, fun k i hk => ?_⟩
  obtain ⟨v, d, w, hv, hd, hw, hvia⟩ := h2 k i hk
  refine ⟨v, d, w, hv, hgr ▸ hd, hw, fun t ht => hvia.1 t (by rw [setOpt_cons]; exact ht),
    fun hn => hvia.2 (fun t => by rw [setOpt_cons]; exact hn t)⟩

/-! ### C34 -/

theorem getElem?_cumFixed : ∀ (k : Nat) (m : List Bool) (i : Nat), i < m.length →
    (State.cumFixed k m)[i]? = some (k + (m.take (i + 1)).count false)
  | k, [], i, h => by simp at h
  | k, b :: m, i, h => by
    cases i with
    | zero => cases b <;> simp [State.cumFixed]
    | succ i =>
      have ih := getElem?_cumFixed (k + if b then 0 else 1) m i (by simpa using h)
      simp only [State.cumFixed, List.getElem?_cons_succ, ih, List.take_succ_cons, List.count_cons]
      cases b <;> (simp; try omega)

theorem count_true_add_false (l : List Bool) : l.count true + l.count false = l.length := by
  induction l with
  | nil => rfl
  | cons b l ih => cases b <;> (simp; omega)

theorem length_cumFixed (k : Nat) (m : List Bool) : (State.cumFixed k m).length = m.length := by
  induction m generalizing k with
  | nil => rfl
  | cons b m ih => simp [State.cumFixed, ih]

/-- C34: `_raveled_index_for_transformed(y)` lists for each free element `k` of the object `y`, in order,
its position in `optimizer_array`: the position `q` with `free[q]` the element's place in the model. -/
theorem transformed_positions {s : State V T} (r : Ready s) {y : Id} {n : Nat}
    (hy : At s.heap.toGraph s.root y n) :
    (s.raveledForTransformed ⟨y, none⟩).length =
      ((List.range (s.heap.size y)).filter (fun k => decide (k ∉ s.heap.constraints y .fixed))).length ∧
    ∀ j k : Nat, ((List.range (s.heap.size y)).filter (fun k => decide (k ∉ s.heap.constraints y .fixed)))[j]? = some k →
      ∃ q : Nat, (s.raveledForTransformed ⟨y, none⟩)[j]? = some q ∧ (free s)[q]? = some (n + k) := by
  have w := r.wf
  have hwin := hy.window w.skel w.sized
  have e1 : s.heap.toGraph.size y = s.heap.size y := rfl
  have e2 : s.heap.toGraph.size s.root = s.size := rfl
  have hoff : s.raveledFor ⟨y, none⟩ = (List.range (s.heap.size y)).map (· + n) := by
    unfold State.raveledFor Target.index
    by_cases hyr : y = s.root
    · subst hyr
      have h0 := w.skel.at_self hy
      subst h0
      have : s.heap.toGraph.offsetFor s.root s.root = 0 := by
        obtain ⟨o, c⟩ := Within.ctx r (x := ⟨s.root, none⟩)
          ⟨⟨r.lt, fun a ha => by cases ha⟩, .refl⟩
        rw [c.offsetFor]
        exact w.skel.at_self c.pos
      simp [this]
    · simp [Hier.Heap.offset_is_position r.reach hy hyr]
  have hmem : ∀ k, k < s.heap.size y → (k ∈ s.heap.constraints y .fixed ↔ k + n ∈ s.cons .fixed) := by
    intro k hk
    rw [w.mem_constraints r.lt r.root hy, r.cons_eq]
    exact ⟨fun h => h.2, fun h => ⟨hk, h⟩⟩
  have hfilt : (s.raveledFor ⟨y, none⟩).filter (fun i => decide (i ∉ s.cons .fixed)) =
      ((List.range (s.heap.size y)).filter (fun k => decide (k ∉ s.heap.constraints y .fixed))).map (· + n) := by
    rw [hoff, List.filter_map]
    congr 1
    apply List.filter_congr
    intro k hk
    simp only [Function.comp_apply, hmem k (List.mem_range.mp hk)]
  have hpos : ∀ (i : Nat), i ∈ s.raveledFor ⟨y, none⟩ → i < s.size := by
    intro i hi
    rw [hoff] at hi
    simp only [List.mem_map, List.mem_range] at hi
    obtain ⟨k, hk, rfl⟩ := hi
    omega
  cases hf : s.hasFixes with
  | true =>
    set m := Heap.maskOf s.size (s.cons .fixed) with hm
    have hml : m.length = s.size := maskOf_length _ _
    have hsel : (s.raveledFor ⟨y, none⟩).filter (fun i => m.getD i true) =
        (s.raveledFor ⟨y, none⟩).filter (fun i => decide (i ∉ s.cons .fixed)) := by
      apply List.filter_congr
      intro i hi
      rw [hm, List.getD_eq_getElem?_getD, Heap.maskOf, List.getElem?_map, List.getElem?_range (hpos i hi)]
      rfl
    have htr : ∀ i, i < s.size → i ∉ s.cons .fixed → ∃ q,
        (List.zipWith (· - ·) (List.range s.size) (State.cumFixed 0 m))[i]? = some q ∧
        (free s)[q]? = some i := by
      intro i hi hfx
      have hmi : m[i]? = some true := getElem?_maskOf.mpr ⟨hi, hfx⟩
      refine ⟨(m.take i).count true, ?_, ?_⟩
      · rw [List.getElem?_zipWith, List.getElem?_range hi, getElem?_cumFixed 0 m i (by omega)]
        simp only [Option.some.injEq, Nat.zero_add]
        rw [List.take_add_one, hmi, List.count_append]
        have := count_true_add_false (m.take i)
        rw [List.length_take, Nat.min_eq_left (by omega)] at this
        simp
        omega
      · rw [free_eq, getElem?_through]
        exact ⟨hmi, rfl⟩
    have hres : s.raveledForTransformed ⟨y, none⟩ =
        pick (List.zipWith (· - ·) (List.range s.size) (State.cumFixed 0 m))
          (((List.range (s.heap.size y)).filter
            (fun k => decide (k ∉ s.heap.constraints y .fixed))).map (· + n)) := by
      simp only [State.raveledForTransformed]
      rw [if_pos hf, r.mask hf, Option.getD_some, ← hm, hsel, hfilt]
    have hbd : ∀ j ∈ ((List.range (s.heap.size y)).filter
        (fun k => decide (k ∉ s.heap.constraints y .fixed))).map (· + n),
        j < (List.zipWith (· - ·) (List.range s.size) (State.cumFixed 0 m)).length := by
      intro j hj
      rw [List.length_zipWith, List.length_range, length_cumFixed, hml, Nat.min_self]
      simp only [List.mem_map, List.mem_filter, List.mem_range] at hj
      obtain ⟨k, ⟨hk, -⟩, rfl⟩ := hj
      omega
    rw [hres]
    refine ⟨by rw [pick_length hbd, List.length_map], fun j k hjk => ?_⟩
    have hk := List.mem_filter.mp (List.mem_of_getElem? hjk)
    have hk1 := List.mem_range.mp hk.1
    obtain ⟨q, hq1, hq2⟩ := htr (k + n) (by omega)
      (fun h => by have := (hmem k hk1).mpr h; simp [this] at hk)
    refine ⟨q, ?_, by rw [hq2, Nat.add_comm]⟩
    rw [getElem?_pick hbd, List.getElem?_map, hjk]
    exact hq1
  | false =>
    have hnil : s.cons .fixed = [] := by simpa [State.hasFixes] using hf
    have hall : (List.range (s.heap.size y)).filter (fun k => decide (k ∉ s.heap.constraints y .fixed)) =
        List.range (s.heap.size y) := by
      apply List.filter_eq_self.mpr
      intro k hk
      have := (hmem k (List.mem_range.mp hk)).not
      rw [hnil] at this
      simpa using this
    have hres : s.raveledForTransformed ⟨y, none⟩ = (List.range (s.heap.size y)).map (· + n) := by
      unfold State.raveledForTransformed
      rw [if_neg (by simp [hf]), hoff]
    rw [hres, hall, free_of_no_fixes hf]
    refine ⟨by simp, fun j k hjk => ⟨k + n, ?_, ?_⟩⟩
    · rw [List.getElem?_map, hjk]; rfl
    · have := List.mem_range.mp (List.mem_of_getElem? hjk)
      rw [List.getElem?_range (by omega), Nat.add_comm]

/-- C34: every position of `optimizer_array` is listed for exactly one `Param`. -/
theorem transformed_positions_partition {s : State V T} (r : Ready s) {q : Nat} (hq : q < (free s).length) :
    ∃! y, s.heap.leaf y = true ∧ Anc s.heap.toGraph s.root y ∧ q ∈ s.raveledForTransformed ⟨y, none⟩ := by
  have w := r.wf
  have hqi := List.getElem?_eq_getElem hq
  set i := (free s)[q] with hi
  have hfree := mem_free.mp (List.mem_of_getElem? hqi)
  have hnd : (free s).Nodup := List.Nodup.filter _ List.nodup_range
  have e2 : s.heap.size s.root = s.size := rfl
  obtain ⟨y, ⟨hl, n, hy, h1, h2⟩, huniq⟩ := Hier.Heap.leaves_tile r.reach s.root i hfree.1
  have mem : ∀ z m, At s.heap.toGraph s.root z m → (q ∈ s.raveledForTransformed ⟨z, none⟩ ↔
      m ≤ i ∧ i < m + s.heap.size z) := by
    intro z m hz
    obtain ⟨hlen, hp⟩ := transformed_positions r hz
    constructor
    · intro hmem
      obtain ⟨j, hj⟩ := List.mem_iff_getElem?.mp hmem
      have hjl : j < ((List.range (s.heap.size z)).filter
          (fun k => decide (k ∉ s.heap.constraints z .fixed))).length := by
        rw [← hlen]; exact (List.getElem?_eq_some_iff.mp hj).1
      have hk := List.getElem?_eq_getElem hjl
      obtain ⟨q', hq', hfr⟩ := hp j _ hk
      rw [hj] at hq'; cases hq'
      rw [hqi] at hfr
      have hks := List.mem_range.mp (List.mem_filter.mp (List.mem_of_getElem? hk)).1
      have := Option.some.inj hfr
      omega
    · rintro ⟨ha, hb⟩
      have hk : i - m < s.heap.size z := by omega
      have hfx : i - m ∉ s.heap.constraints z .fixed := by
        intro hc
        rw [w.mem_constraints r.lt r.root hz, ← r.cons_eq] at hc
        exact hfree.2 (by have := hc.2; rwa [show i - m + m = i by omega] at this)
      have hmem : i - m ∈ (List.range (s.heap.size z)).filter
          (fun k => decide (k ∉ s.heap.constraints z .fixed)) := by
        rw [List.mem_filter]; exact ⟨List.mem_range.mpr hk, by simpa using hfx⟩
      obtain ⟨j, hj⟩ := List.mem_iff_getElem?.mp hmem
      obtain ⟨q', hq', hfr⟩ := hp j _ hj
      rw [show m + (i - m) = i by omega] at hfr
      have hq'l := (List.getElem?_eq_some_iff.mp hfr).1
      have : q' = q := by
        apply (List.getElem?_inj hq'l hnd).mp
        rw [hfr, hqi]
      rw [← this]
      exact List.mem_of_getElem? hq'
  refine ⟨y, ⟨hl, hy.anc w.skel, (mem y n hy).mpr ⟨h1, h2⟩⟩, ?_⟩
  rintro z ⟨hzl, hza, hzq⟩
  obtain ⟨m, hm⟩ := w.skel.exists_at hza
  obtain ⟨h3, h4⟩ := (mem z m hm).mp hzq
  exact huniq z ⟨hzl, m, hm, h3, h4⟩

example : demo.raveledForTransformed ⟨3, none⟩ = [2, 3] ∧ demo.raveledForTransformed ⟨4, none⟩ = [4] ∧
    demo.raveledForTransformed ⟨5, none⟩ = [] ∧ demo.raveledForTransformed ⟨1, none⟩ = [0, 1] := by
  decide +kernel

/-! ### C49 -/

theorem assign_select_self {a : List V} {m : List Bool} (hl : a.length = m.length) :
    assign a m (select a m) = a := by
  apply List.ext_getElem?
  intro i
  have hb : ∀ j ∈ through m, j < a.length := by
    intro j hj
    have := List.mem_range.mp (List.mem_filter.mp hj).1
    omega
  by_cases h : m[i]? = some true
  · have hk : (through m)[(m.take i).count true]? = some i := (getElem?_through m _ i).mpr ⟨h, rfl⟩
    rw [getElem?_assign_through hl (by rw [select_eq _ _ hl, pick_length hb]) hk, select_eq _ _ hl,
      getElem?_pick hb, hk]
    rfl
  · rw [getElem?_assign_other h]

/-- Values after `randomize`: exactly what setting `optimizer_array` to the drawn values gives. -/
theorem randomize_vals (o : Ops V T) (g : List V → List V) {s : State V T} (r : Ready s) (draws : List V) :
    (s.randomize o g draws).vals = s.setVals o draws := by
  have hs0 : s.updateModel g false = { s with on := false } := by
    simp [State.updateModel, State.notify]
  have hv : (((s.updateModel g false)).setOpt o g draws).vals = s.setVals o draws := by
    rw [hs0]; simp only [State.setOpt, notify_vals]; rfl
  simp only [State.randomize, State.updateModel, notify_vals]
  have hv' : ((({ s with on := false } : State V T).notify g).setOpt o g draws).vals = s.setVals o draws := hv
  rw [hv']
  apply assign_select_self
  rw [maskOf_length, setVals_length o s draws r, r.vals]
  simp [State.size, State.setOpt]

/-- C49: `randomize` leaves fixed elements as they are, whatever is drawn. -/
theorem randomize_keeps_fixed (o : Ops V T) (g : List V → List V) {s : State V T} (r : Ready s) (draws : List V)
    {i : Nat} (hi : i ∈ s.cons .fixed) : (s.randomize o g draws).vals[i]? = s.vals[i]? := by
  rw [randomize_vals o g r]
  exact (setVals_spec o r draws).2.1 i hi

/-- C49: with the number of draws that is asked for, every free constrained element gets `f` of a drawn
value, which lies in the domain of its transformation. -/
theorem randomize_in_domain (sem : T → Transform.Tr) (hsem : ∀ t, (sem t).Valid)
    (g : List (Option ℝ) → List (Option ℝ)) {s : State (Option ℝ) T} (r : Ready s) {draws : List (Option ℝ)}
    (hd : draws.length = s.sizeTransformed) (hfin : ∀ d ∈ draws, d ≠ none) {i : Nat} (hi : i < s.size)
    (hfree : i ∉ s.cons .fixed) {t : T} (ht : i ∈ s.cons (.tr t)) :
    ∃ v, (s.randomize (floatOps sem) g draws).vals[i]? = some (some v) ∧ v ∈ Transform.Dom (sem t) := by
  rw [randomize_vals _ g r]
  obtain ⟨k, hk⟩ := List.mem_iff_getElem?.mp (mem_free.mpr ⟨hi, hfree⟩)
  obtain ⟨x, w, hx, hw, hvia⟩ := (setVals_spec (floatOps sem) r draws).2.2
    (hd.trans (size_transformed_exact r)) k i hk
  cases x with
  | none => exact absurd rfl (hfin none (List.mem_of_getElem? hx))
  | some x =>
    refine ⟨(sem t).f x, ?_, Transform.transformed_in_domain _ (hsem t) x⟩
    rw [hw, hvia.1 t ht]; rfl

/-- C49: the update switch is as before, and with updates on the model has been updated to the new
values. -/
theorem randomize_keeps_switch (o : Ops V T) (g : List V → List V) (s : State V T) (draws : List V) :
    (s.randomize o g draws).on = s.on ∧
    (s.on = true → (s.randomize o g draws).grad = g (s.randomize o g draws).vals) := by
  constructor
  · simp [State.randomize, State.updateModel]
  · intro h
    simp [State.randomize, State.updateModel, State.notify, h]

example : (demo.randomize demoOps id [20, 21, 22, 23, 24]).vals = [20, 28, 30, 31, 14, 24, 16, 17] ∧
    demo.sizeTransformed = 5 := by decide +kernel

end Paramz.Opt

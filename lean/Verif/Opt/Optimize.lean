import Verif.Opt.Deriv
import Verif.Run.SCGLength

/-!
# Optimising a model (C66)

Source: `paramz/model.py:65-116, 225-282`, `paramz/optimization/optimization.py:222-244`,
`paramz/optimization/scg.py:44-174`. Failed evaluations are left out (C45), and so are records (C63) and
messages. `objective_function` and the gradient set by `parameters_changed` are functions of the parameter
values.
-/

set_option linter.unusedSectionVars false

namespace Paramz.Opt

open IndexOps (Arr lookup)
open Hier (Heap Con Id)
open Hier.Graph (Anc At)
open Run (SCG.Val SCG.Problem SCG.Result SCG.run SCG.NotAbove)

variable {V T : Type} [DecidableEq T]

/-! ### Model -/

/-- What an optimiser asks the model: `_objective(x)`, `_grads(x)` or `_objective_grads(x)`
(model.py:225-282). -/
inductive Call (V : Type)
  | objective (x : List V)
  | grads (x : List V)
  | both (x : List V)

/-- The model after one evaluation. -/
def State.call (o : Ops V T) (g : List V → List V) (s : State V T) : Call V → State V T
  | .objective x => s.setOpt o g x
  | .grads x => (s.grads o g x).1
  | .both x => (s.grads o g x).1

/-- The model after some evaluations. -/
def State.calls (o : Ops V T) (g : List V → List V) (s : State V T) (cs : List (Call V)) : State V T :=
  cs.foldl (fun s c => s.call o g c) s

/-- The model when the optimiser starts (model.py:93-98): updates are switched on if they were off. -/
def State.begin (g : List V → List V) (s : State V T) : State V T := if s.on then s else s.updateModel g true

/-- `optimize()` (model.py:65-116). The optimiser, given the model and the start, makes some evaluations and
finds `x_opt`. -/
def State.optimize (o : Ops V T) (g : List V → List V) (junk : List V)
    (opt : State V T → List V → List (Call V) × List V) (s : State V T) : State V T :=
  if s.heap.isFixed s.root || decide (s.size = 0) then s
  else
    let r := (s.begin g).readOpt o junk
    ((r.1.calls o g (opt r.1 r.2).1).setOpt o g (opt r.1 r.2).2)

/-- The tolerances of SCG. -/
structure Tol where
  xtol : ℝ
  ftol : ℝ
  gtol : ℝ

/-- What `opt_SCG` gives to SCG (optimization.py:230-238): `_objective` and `_grads` of the model. An entry that
is not a finite number is written as zero; there is none, see `grads_finite`. Without fixes the gradients are
the array of the model, into which every evaluation writes (C62). -/
noncomputable def scgProblem (sem : T → Transform.Tr) (g : List (Option ℝ) → List (Option ℝ))
    (F : List (Option ℝ) → SCG.Val ℝ) (tol : Tol) (s : State (Option ℝ) T) : SCG.Problem ℝ where
  f x := (s.objective (floatOps sem) g F (x.map some)).2
  gradf x := (s.grads (floatOps sem) g (x.map some)).2.map (·.getD 0)
  sqrt := Real.sqrt
  xtol := tol.xtol
  ftol := tol.ftol
  gtol := tol.gtol
  shared := !s.hasFixes
  left x := (s.objective (floatOps sem) g F (x.map some)).1.grad.map (·.getD 0)

/-- `opt_SCG` (optimization.py:222-244) as an optimiser. Which points SCG evaluates makes no difference to the
result (`optimize_calls`), so they are an input. -/
noncomputable def scg (sem : T → Transform.Tr) (g : List (Option ℝ) → List (Option ℝ))
    (F : List (Option ℝ) → SCG.Val ℝ) (tol : Tol) (maxiters : Nat) (cs : List (Call (Option ℝ)))
    (s : State (Option ℝ) T) (start : List (Option ℝ)) : List (Call (Option ℝ)) × List (Option ℝ) :=
  (cs, (SCG.run (scgProblem sem g F tol s) (start.map (·.getD 0)) maxiters).x.map some)

/-! ### Evaluations -/

/-- The two states agree on everything but the free values, gradients and the optimiser's copy. -/
structure Akin (s s' : State V T) : Prop where
  heap : s'.heap = s.heap
  root : s'.root = s.root
  on : s'.on = s.on
  ready : Ready s'
  fixed : ∀ i, i ∈ s.cons .fixed → s'.vals[i]? = s.vals[i]?

theorem Akin.refl {s : State V T} (r : Ready s) : Akin s s := ⟨rfl, rfl, rfl, r, fun _ _ => rfl⟩

theorem Akin.cons {s s' : State V T} (h : Akin s s') (c : Con T) : s'.cons c = s.cons c := by
  unfold State.cons; rw [h.heap, h.root]

theorem Akin.size {s s' : State V T} (h : Akin s s') : s'.size = s.size := by
  unfold State.size; rw [h.heap, h.root]

theorem Akin.free {s s' : State V T} (h : Akin s s') : free s' = free s := by
  unfold Opt.free; rw [h.size, h.cons]

theorem Akin.via {s s' : State V T} (h : Akin s s') {φ : T → V → V} {i : Nat} {v w : V} :
    Via s' φ i v w ↔ Via s φ i v w := by
  unfold Via; simp only [h.cons]

theorem Akin.trans {s s' s'' : State V T} (h : Akin s s') (h' : Akin s' s'') : Akin s s'' :=
  ⟨h'.heap.trans h.heap, h'.root.trans h.root, h'.on.trans h.on, h'.ready,
    fun i hi => (h'.fixed i (by rw [h.cons]; exact hi)).trans (h.fixed i hi)⟩

theorem akin_setOpt (o : Ops V T) (g : List V → List V) {s : State V T} (r : Ready s) (p : List V) :
    Akin s (s.setOpt o g p) :=
  ⟨by simp [State.setOpt], by simp [State.setOpt], by simp [State.setOpt], setOpt_ready o g r p,
    fun _ hi => set_keeps_fixed o g r p hi⟩

theorem akin_optGrad (o : Ops V T) {s : State V T} (r : Ready s) : Akin s (s.optGrad o).1 :=
  ⟨rfl, rfl, rfl, exec_ready (g := id) (e := .optGrad) r trivial, fun _ _ => rfl⟩

theorem akin_call (o : Ops V T) (g : List V → List V) {s : State V T} (r : Ready s) (c : Call V) :
    Akin s (s.call o g c) := by
  cases c with
  | objective x => exact akin_setOpt o g r x
  | grads x => exact (akin_setOpt o g r x).trans (akin_optGrad o (setOpt_ready o g r x))
  | both x => exact (akin_setOpt o g r x).trans (akin_optGrad o (setOpt_ready o g r x))

theorem akin_calls (o : Ops V T) (g : List V → List V) (cs : List (Call V)) :
    ∀ {s : State V T}, Ready s → Akin s (s.calls o g cs) := by
  induction cs with
  | nil => exact fun r => .refl r
  | cons c cs ih =>
    intro s r
    have h := akin_call o g r c
    exact h.trans (ih h.ready)

theorem akin_read (o : Ops V T) {s : State V T} (r : Ready s) (junk : List V) :
    Akin s (s.readOpt o junk).1 := by
  have r1 := readOpt_ready o r junk
  have hst := readOpt_state (o := o) r junk
  refine ⟨?_, ?_, ?_, r1, fun i _ => ?_⟩ <;> rw [hst]

theorem read_vals (o : Ops V T) {s : State V T} (r : Ready s) (junk : List V) :
    (s.readOpt o junk).1.vals = s.vals := by rw [readOpt_state (o := o) r junk]

/-- The values after setting a vector of the right length are the same in states that agree on the fixed
values. -/
theorem setVals_akin (o : Ops V T) {s s' : State V T} (r : Ready s) (h : Akin s s') {p : List V}
    (hp : p.length = (free s).length) : s'.setVals o p = s.setVals o p := by
  obtain ⟨l1, a1, b1⟩ := setVals_spec o r p
  obtain ⟨l2, a2, b2⟩ := setVals_spec o h.ready p
  apply List.ext_getElem?
  intro i
  by_cases hi : i < s.size
  · by_cases hf : i ∈ s.cons .fixed
    · rw [a1 i hf, a2 i (by rw [h.cons]; exact hf), h.fixed i hf]
    · obtain ⟨k, hk⟩ := List.mem_iff_getElem?.mp (mem_free.mpr ⟨hi, hf⟩)
      obtain ⟨x, w, hx, hw, hv⟩ := b1 hp k i hk
      obtain ⟨x', w', hx', hw', hv'⟩ := b2 (by rw [h.free]; exact hp) k i (by rw [h.free]; exact hk)
      rw [hx] at hx'; cases hx'
      rw [hw, hw', via_unique r hv (h.via.mp hv')]
  · have hs := h.size
    rw [List.getElem?_eq_none (by omega), List.getElem?_eq_none (by omega)]

theorem setOpt_vals (o : Ops V T) (g : List V → List V) (s : State V T) (p : List V) :
    (s.setOpt o g p).vals = s.setVals o p := by simp [State.setOpt]

theorem setOpt_grad (o : Ops V T) (g : List V → List V) {s : State V T} (hon : s.on = true) (p : List V) :
    (s.setOpt o g p).grad = g (s.setVals o p) := by
  simp [State.setOpt, State.notify, hon]

/-- Whatever was evaluated before, the objective at `x` and the gradient at `x` are those of the model. -/
theorem answers_depend_on_x {W : Type} (o : Ops V T) (g : List V → List V) (F : List V → W) {s : State V T} (r : Ready s)
    (hon : s.on = true) (cs : List (Call V)) {x : List V} (hx : x.length = (free s).length) :
    ((s.calls o g cs).objective o g F x).2 = (s.objective o g F x).2 ∧
    ((s.calls o g cs).grads o g x).2 = (s.grads o g x).2 := by
  have h := akin_calls o g cs r
  have e := setVals_akin o r h hx
  refine ⟨?_, ?_⟩
  · show F _ = F _
    rw [setOpt_vals, setOpt_vals, e]
  · have hm : ∀ (t : State V T), t.heap = s.heap → t.root = s.root → t.items = s.items ∧ t.hasFixes = s.hasFixes ∧
        t.heap.fixes t.root = s.heap.fixes s.root := by
      intro t h1 h2
      unfold State.items State.hasFixes State.cons
      rw [h1, h2]; exact ⟨rfl, rfl, rfl⟩
    have k1 := hm (s.setOpt o g x) (by simp [State.setOpt]) (by simp [State.setOpt])
    have k2 := hm ((s.calls o g cs).setOpt o g x) (by simp [State.setOpt, h.heap]) (by simp [State.setOpt, h.root])
    show (((s.calls o g cs).setOpt o g x).transformGradients o _).2 = ((s.setOpt o g x).transformGradients o _).2
    unfold State.transformGradients
    simp only
    rw [k1.1, k1.2.1, k1.2.2, k2.1, k2.2.1, k2.2.2, setOpt_vals, setOpt_vals, e, setOpt_grad o g hon,
      setOpt_grad o g (h.on.trans hon), e]

/-! ### Any optimiser -/

theorem begin_ready (o : Ops V T) (g : List V → List V) {s : State V T} (r : Ready s) : Ready (s.begin g) := by
  unfold State.begin; split
  · exact r
  · exact exec_ready (o := o) (g := g) (e := .updateModel true) r trivial

theorem begin_eq (g : List V → List V) (s : State V T) : (s.begin g).heap = s.heap ∧ (s.begin g).root = s.root ∧
    (s.begin g).vals = s.vals ∧ (s.begin g).on = true := by
  unfold State.begin
  cases h : s.on with
  | true => exact ⟨rfl, rfl, rfl, h⟩
  | false =>
    simp only [Bool.false_eq_true, if_false]
    unfold State.updateModel
    exact ⟨by simp, by simp, by simp, by simp⟩

/-- The model to which the optimiser is applied. -/
def State.prepared (o : Ops V T) (g : List V → List V) (junk : List V) (s : State V T) : State V T :=
  ((s.begin g).readOpt o junk).1

theorem prepared_akin (o : Ops V T) (g : List V → List V) (junk : List V) {s : State V T} (r : Ready s) :
    Ready (s.prepared o g junk) ∧ (s.prepared o g junk).heap = s.heap ∧ (s.prepared o g junk).root = s.root ∧
    (s.prepared o g junk).vals = s.vals ∧ (s.prepared o g junk).on = true := by
  obtain ⟨h1, h2, h3, h4⟩ := begin_eq g s
  have h := akin_read o (begin_ready o g r) junk
  exact ⟨h.ready, h.heap.trans h1, h.root.trans h2, (read_vals o (begin_ready o g r) junk).trans h3, h.on.trans h4⟩

theorem prepared_setVals (o : Ops V T) (g : List V → List V) (junk : List V) {s : State V T} (r : Ready s) (p : List V) :
    (s.prepared o g junk).setVals o p = s.setVals o p := by
  obtain ⟨-, h1, h2, h3, -⟩ := prepared_akin o g junk r
  unfold State.setVals State.setterMask State.hasFixes State.size State.items State.cons
  rw [h1, h2, h3]

/-- There is something to optimise as soon as one element is not fixed. -/
theorem not_all_fixed {s : State V T} (r : Ready s) {i : Nat} (hi : i ∈ free s) :
    (s.heap.isFixed s.root || decide (s.size = 0)) = false := by
  have hf := mem_free.mp hi
  have e : s.heap.size s.root = s.size := rfl
  rw [Bool.or_eq_false_iff]
  refine ⟨?_, by simp only [decide_eq_false_iff_not]; omega⟩
  by_contra hc
  have hc : s.heap.isFixed s.root = true := by simpa using hc
  obtain ⟨y, ⟨hl, n, hy, h1, h2⟩, -⟩ := Hier.Heap.leaves_tile r.reach s.root i hf.1
  have := (Hier.Heap.isFixed_iff r.reach r.lt).mp hc y (hy.anc r.wf.skel) hl (i - n)
    (by have : s.heap.toGraph.size y = s.heap.size y := rfl; omega)
  rw [r.wf.mem_constraints r.lt r.root hy, ← r.cons_eq] at this
  exact hf.2 (by have := this.2; rwa [show i - n + n = i by omega] at this)

/-- Nothing free: nothing is done. -/
theorem optimize_nothing (o : Ops V T) (g : List V → List V) (junk : List V)
    (opt : State V T → List V → List (Call V) × List V) {s : State V T}
    (h : (s.heap.isFixed s.root || decide (s.size = 0)) = true) : s.optimize o g junk opt = s := by
  unfold State.optimize; rw [if_pos h]

theorem optimize_eq (o : Ops V T) (g : List V → List V) (junk : List V)
    (opt : State V T → List V → List (Call V) × List V) {s : State V T}
    (h : (s.heap.isFixed s.root || decide (s.size = 0)) = false) :
    s.optimize o g junk opt = ((s.prepared o g junk).calls o g
      (opt (s.prepared o g junk) ((s.begin g).readOpt o junk).2).1).setOpt o g
      (opt (s.prepared o g junk) ((s.begin g).readOpt o junk).2).2 := by
  unfold State.optimize
  rw [if_neg (by rw [h]; exact Bool.false_ne_true)]
  rfl

/-- The values after optimising with a result of the right length, as if it had been set at once. -/
theorem optimize_vals (o : Ops V T) (g : List V → List V) (junk : List V)
    (opt : State V T → List V → List (Call V) × List V) {s : State V T} (r : Ready s)
    (h : (s.heap.isFixed s.root || decide (s.size = 0)) = false)
    (hx : (opt (s.prepared o g junk) ((s.begin g).readOpt o junk).2).2.length = (free s).length) :
    (s.optimize o g junk opt).vals = s.setVals o (opt (s.prepared o g junk) ((s.begin g).readOpt o junk).2).2 := by
  obtain ⟨r1, h1, h2, h3, h4⟩ := prepared_akin o g junk r
  have ha := akin_calls o g (opt (s.prepared o g junk) ((s.begin g).readOpt o junk).2).1 r1
  have hf : free (s.prepared o g junk) = free s := by
    unfold free State.size State.cons; rw [h1, h2]
  rw [optimize_eq o g junk opt h, setOpt_vals, setVals_akin o r1 ha (by rw [hf]; exact hx)]
  exact prepared_setVals o g junk r _

/-- C66: whatever optimiser is used, whatever it evaluates and finds (a vector of the right length): the hierarchy
and its constraints are as before, fixed elements keep their values, the `k`-th free element is `f` of the `k`-th
entry of the result, updates are on and the gradient is the one of the values. -/
theorem optimize_any (o : Ops V T) (g : List V → List V) (junk : List V)
    (opt : State V T → List V → List (Call V) × List V) {s : State V T} (r : Ready s)
    (hx : (opt (s.prepared o g junk) ((s.begin g).readOpt o junk).2).2.length = (free s).length) :
    Ready (s.optimize o g junk opt) ∧ (s.optimize o g junk opt).heap = s.heap ∧
    (s.optimize o g junk opt).root = s.root ∧
    (∀ i, i ∈ s.cons .fixed → (s.optimize o g junk opt).vals[i]? = s.vals[i]?) ∧
    (free s ≠ [] → (s.optimize o g junk opt).on = true ∧
      (s.optimize o g junk opt).grad = g (s.optimize o g junk opt).vals) ∧
    ∀ k i : Nat, (free s)[k]? = some i →
      ∃ x w, (opt (s.prepared o g junk) ((s.begin g).readOpt o junk).2).2[k]? = some x ∧
        (s.optimize o g junk opt).vals[i]? = some w ∧ Via s o.f i x w := by
  cases h : (s.heap.isFixed s.root || decide (s.size = 0)) with
  | true =>
    have hn : ∀ i, i ∉ free s := fun i hi => by rw [not_all_fixed r hi] at h; cases h
    rw [optimize_nothing o g junk opt h]
    exact ⟨r, rfl, rfl, fun _ _ => rfl, fun hne => absurd (List.eq_nil_iff_forall_not_mem.mpr hn) hne,
      fun k i hk => absurd (List.mem_of_getElem? hk) (hn i)⟩
  | false =>
    have hv := optimize_vals o g junk opt r h hx
    obtain ⟨r1, h1, h2, h3, h4⟩ := prepared_akin o g junk r
    have ha := akin_calls o g (opt (s.prepared o g junk) ((s.begin g).readOpt o junk).2).1 r1
    have hb := ha.trans (akin_setOpt o g ha.ready (opt (s.prepared o g junk) ((s.begin g).readOpt o junk).2).2)
    obtain ⟨-, c1, c2⟩ := setVals_spec o r (opt (s.prepared o g junk) ((s.begin g).readOpt o junk).2).2
    refine ⟨?_, ?_, ?_, fun i hi => ?_, fun _ => ⟨?_, ?_⟩, fun k i hk => ?_⟩
    · rw [optimize_eq o g junk opt h]; exact hb.ready
    · rw [optimize_eq o g junk opt h]; exact hb.heap.trans h1
    · rw [optimize_eq o g junk opt h]; exact hb.root.trans h2
    · rw [hv]; exact c1 i hi
    · rw [optimize_eq o g junk opt h]; exact hb.on.trans h4
    · rw [optimize_eq o g junk opt h, setOpt_grad o g (ha.on.trans h4), setOpt_vals]
    · rw [hv]; exact c2 hx k i hk

/-- Which points were evaluated on the way makes no difference to the values. -/
theorem optimize_calls (o : Ops V T) (g : List V → List V) (junk : List V)
    (opt opt' : State V T → List V → List (Call V) × List V) {s : State V T} (r : Ready s)
    (he : ∀ s' p, (opt s' p).2 = (opt' s' p).2)
    (hx : (opt (s.prepared o g junk) ((s.begin g).readOpt o junk).2).2.length = (free s).length) :
    (s.optimize o g junk opt).vals = (s.optimize o g junk opt').vals := by
  cases h : (s.heap.isFixed s.root || decide (s.size = 0)) with
  | true => rw [optimize_nothing o g junk opt h, optimize_nothing o g junk opt' h]
  | false =>
    rw [optimize_vals o g junk opt r h hx, optimize_vals o g junk opt' r h (by rw [← he]; exact hx), he]

/-- C66: with the transformations of the package every free constrained element ends up inside its domain, if the
optimiser's result is finite. -/
theorem optimize_in_domain (sem : T → Transform.Tr) (hsem : ∀ t, (sem t).Valid)
    (g : List (Option ℝ) → List (Option ℝ)) (junk : List (Option ℝ))
    (opt : State (Option ℝ) T → List (Option ℝ) → List (Call (Option ℝ)) × List (Option ℝ))
    {s : State (Option ℝ) T} (r : Ready s) (res : List ℝ)
    (hres : (opt (s.prepared (floatOps sem) g junk) ((s.begin g).readOpt (floatOps sem) junk).2).2 = res.map some)
    (hx : res.length = (free s).length) {i : Nat} (hi : i ∈ free s) {t : T} (ht : i ∈ s.cons (.tr t)) :
    ∃ v, (s.optimize (floatOps sem) g junk opt).vals[i]? = some (some v) ∧ v ∈ Transform.Dom (sem t) := by
  obtain ⟨k, hk⟩ := List.mem_iff_getElem?.mp hi
  obtain ⟨x, w, h1, h2, h3⟩ := (optimize_any (floatOps sem) g junk opt r (by rw [hres, List.length_map]; exact hx)).2.2.2.2.2
    k i hk
  rw [hres, List.getElem?_map] at h1
  obtain ⟨y, -, rfl⟩ := Option.map_eq_some_iff.mp h1
  refine ⟨(sem t).f y, ?_, Transform.transformed_in_domain _ (hsem t) y⟩
  rw [h2, h3.1 t ht]; rfl

/-! ### Scaled conjugate gradients -/

/-- A vector that lists the free values, written back, leaves the values alone. -/
theorem set_listed (o : Ops V T) {s : State V T} (r : Ready s) {p : List V} (hl : ListsFree o s p)
    (hinv : ∀ i t v, i ∈ free s → i ∈ s.cons (.tr t) → s.vals[i]? = some v → o.f t (o.finv t v) = v) :
    s.setVals o p = s.vals := by
  obtain ⟨h1, h2, h3⟩ := setVals_spec o r p
  apply List.ext_getElem?
  intro i
  by_cases hi : i < s.size
  · by_cases hfx : i ∈ s.cons .fixed
    · exact h2 i hfx
    · obtain ⟨k, hk⟩ := List.mem_iff_getElem?.mp (mem_free.mpr ⟨hi, hfx⟩)
      obtain ⟨v, w, hv, hw, hvia⟩ := hl.2.2 k i hk
      obtain ⟨x, v', hx, hv', hvia'⟩ := h3 hl.2.1 k i hk
      rw [hw] at hx; cases hx
      rw [hv', hv]
      congr 1
      by_cases h : ∃ t, i ∈ s.cons (.tr t)
      · obtain ⟨t, ht⟩ := h
        rw [hvia'.1 t ht, hvia.1 t ht]
        exact hinv i t v (mem_free.mpr ⟨hi, hfx⟩) ht hv
      · have h : ∀ t, i ∉ s.cons (.tr t) := fun t ht => h ⟨t, ht⟩
        rw [hvia'.2 h, hvia.2 h]
  · rw [List.getElem?_eq_none (by omega), List.getElem?_eq_none (by rw [r.vals]; omega)]

/-- Every entry is a finite number. -/
def Finite (l : List (Option ℝ)) : Prop := ∀ e ∈ l, ∃ v, e = some v

theorem finite_map {l : List (Option ℝ)} (h : Finite l) : (l.map (·.getD 0)).map some = l := by
  induction l with
  | nil => rfl
  | cons e l ih =>
    obtain ⟨v, rfl⟩ := h e List.mem_cons_self
    rw [List.map_cons, List.map_cons, ih (fun e he => h e (List.mem_cons_of_mem _ he))]
    rfl

/-- The gradients that SCG is given are finite, if the model computes finite gradients. -/
theorem grads_finite (sem : T → Transform.Tr) (hsem : ∀ t, (sem t).Valid)
    (g : List (Option ℝ) → List (Option ℝ)) {s : State (Option ℝ) T} (r : Ready s) (hon : s.on = true)
    (hg : ∀ a, (g a).length = a.length) {x : List ℝ} (hx : x.length = (free s).length)
    (hfin : Finite (g (s.setVals (floatOps sem) (x.map some)))) :
    Finite (s.grads (floatOps sem) g (x.map some)).2 := by
  obtain ⟨hl, h⟩ := gradient_at_point (floatOps sem) g r hon hg (x.map some)
  intro e he
  obtain ⟨k, hk⟩ := List.mem_iff_getElem?.mp he
  have hkl : k < (free s).length := by
    rw [← hl]; exact (List.getElem?_eq_some_iff.mp hk).1
  have hki := List.getElem?_eq_getElem hkl
  obtain ⟨v, d, w, h1, h2, h3, h4⟩ := h k _ hki
  have h3 : (s.grads (floatOps sem) g (x.map some)).2[k]? = some w := h3
  rw [hk] at h3; cases h3
  rw [setOpt_vals] at h2
  obtain ⟨d, rfl⟩ := hfin _ (List.mem_of_getElem? h2)
  by_cases ht : ∃ t, (free s)[k] ∈ s.cons (.tr t)
  · obtain ⟨t, ht⟩ := ht
    obtain ⟨x', w', a1, a2, a3⟩ := set_writes_free (floatOps sem) g r (p := x.map some)
      (by rw [List.length_map]; exact hx) hki
    rw [h1] at a2; cases a2
    rw [List.getElem?_map] at a1
    obtain ⟨y, -, rfl⟩ := Option.map_eq_some_iff.mp a1
    have hv : v = some ((sem t).f y) := a3.1 t ht
    have hd := Transform.transformed_in_domain _ (hsem t) y
    rw [h4.1 t ht, hv]
    show ∃ u, ((sem t).gradfactor ((sem t).f y) d) = some u
    generalize (sem t).f y = z at hd
    cases hst : sem t with
    | square =>
      rw [hst] at hd
      have hd : 0 ≤ z := hd
      exact ⟨_, by show (Transform.npSqrt z).map _ = _; unfold Transform.npSqrt; rw [if_pos hd]; rfl⟩
    | _ => exact ⟨_, rfl⟩
  · exact ⟨d, h4.2 (fun t h => ht ⟨t, h⟩)⟩

/-- What SCG works with has the right lengths. -/
theorem scgProblem_sized (sem : T → Transform.Tr) (g : List (Option ℝ) → List (Option ℝ))
    (F : List (Option ℝ) → SCG.Val ℝ) (tol : Tol) {s : State (Option ℝ) T} (r : Ready s) (hon : s.on = true)
    (hg : ∀ a, (g a).length = a.length) : (scgProblem sem g F tol s).Sized (free s).length := by
  refine ⟨fun x _ => ?_, fun hs x _ => ?_⟩
  · show ((s.grads (floatOps sem) g (x.map some)).2.map _).length = _
    rw [List.length_map]; exact (gradient_at_point (floatOps sem) g r hon hg (x.map some)).1
  · show ((s.setOpt (floatOps sem) g (x.map some)).grad.map _).length = _
    rw [List.length_map, setOpt_grad _ _ hon, hg, setVals_length _ _ _ r, r.vals,
      free_of_no_fixes (by have : (!s.hasFixes) = true := hs; simpa using this), List.length_range]

/-- A model about to be optimised: all free values are finite, those with a constraint are within the limits in
which reading and writing back gives the same value (C16), and `optimizer_array` lists them (C32). -/
structure Startable (sem : T → Transform.Tr) (g : List (Option ℝ) → List (Option ℝ)) (junk : List (Option ℝ))
    (s : State (Option ℝ) T) : Prop where
  ready : Ready s
  finite : ∀ i, i ∈ free s → ∃ v, s.vals[i]? = some (some v)
  within : ∀ i t, i ∈ free s → i ∈ s.cons (.tr t) → ∃ v, s.vals[i]? = some (some v) ∧ WithinC16 (sem t) v
  listed : ListsFree (floatOps sem) s ((s.begin g).readOpt (floatOps sem) junk).2

/-- The start is a vector of finite numbers. -/
theorem Startable.start_finite {sem : T → Transform.Tr} {g : List (Option ℝ) → List (Option ℝ)}
    {junk : List (Option ℝ)} {s : State (Option ℝ) T} (h : Startable sem g junk s) :
    Finite ((s.begin g).readOpt (floatOps sem) junk).2 := by
  intro e he
  obtain ⟨k, hk⟩ := List.mem_iff_getElem?.mp he
  have hkl : k < (free s).length := by
    rw [← h.listed.2.1]; exact (List.getElem?_eq_some_iff.mp hk).1
  have hki := List.getElem?_eq_getElem hkl
  have hmem := List.mem_of_getElem? hki
  obtain ⟨v, w, h1, h2, h3⟩ := h.listed.2.2 k _ hki
  rw [hk] at h2; cases h2
  by_cases ht : ∃ t, (free s)[k] ∈ s.cons (.tr t)
  · obtain ⟨t, ht⟩ := ht
    obtain ⟨y, hy, l⟩ := h.within _ t hmem ht
    rw [h1] at hy; cases hy
    obtain ⟨x, hx, -⟩ := Transform.f_finv_partial (sem t) l.ne y l.dom l.limits
    exact ⟨x, by rw [h3.1 t ht]; exact hx⟩
  · obtain ⟨y, hy⟩ := h.finite _ hmem
    rw [h1] at hy; cases hy
    exact ⟨y, h3.2 (fun t h => ht ⟨t, h⟩)⟩

theorem Startable.start_back {sem : T → Transform.Tr} {g : List (Option ℝ) → List (Option ℝ)}
    {junk : List (Option ℝ)} {s : State (Option ℝ) T} (h : Startable sem g junk s) :
    s.setVals (floatOps sem) ((s.begin g).readOpt (floatOps sem) junk).2 = s.vals := by
  refine set_listed _ h.ready h.listed (fun i t v hi ht hv => ?_)
  obtain ⟨y, hy, l⟩ := h.within i t hi ht
  rw [hv] at hy; cases hy
  obtain ⟨x, hx, he⟩ := Transform.f_finv_partial (sem t) l.ne y l.dom l.limits
  show ((some y).bind (sem t).finv).map (sem t).f = some y
  rw [Option.bind_some, hx, Option.map_some, he]

/-- The run of SCG in `m.optimize('scg')`. -/
noncomputable def scgRun (sem : T → Transform.Tr) (g : List (Option ℝ) → List (Option ℝ))
    (F : List (Option ℝ) → SCG.Val ℝ) (tol : Tol) (maxiters : Nat) (junk : List (Option ℝ))
    (s : State (Option ℝ) T) : SCG.Result ℝ :=
  SCG.run (scgProblem sem g F tol (s.prepared (floatOps sem) g junk))
    (((s.begin g).readOpt (floatOps sem) junk).2.map (·.getD 0)) maxiters

/-- C66 (partial): `m.optimize('scg')` of a model whose values are finite and within the limits of C16. The
hierarchy and its constraints are as before; fixed elements keep their values; every free constrained element is
inside its domain; the objective is not above the one at the beginning; the recorded trace of objectives goes
from the value at the beginning to the value at the end and never up; afterwards updates are on and the
gradient is the one of the values. Missing: values outside these limits and `NegativeExponent`
(`optimize_worse_fails`). -/
theorem optimize_scg_partial (sem : T → Transform.Tr) (hsem : ∀ t, (sem t).Valid)
    (g : List (Option ℝ) → List (Option ℝ)) (hg : ∀ a, (g a).length = a.length)
    (F : List (Option ℝ) → SCG.Val ℝ) (tol : Tol) (maxiters : Nat) (cs : List (Call (Option ℝ)))
    (junk : List (Option ℝ)) {s : State (Option ℝ) T} (h : Startable sem g junk s) (hne : free s ≠ [])
    (s' : State (Option ℝ) T) (hs' : s' = s.optimize (floatOps sem) g junk (scg sem g F tol maxiters cs)) :
    Ready s' ∧ s'.heap = s.heap ∧ s'.root = s.root ∧
    (∀ i, i ∈ s.cons .fixed → s'.vals[i]? = s.vals[i]?) ∧
    (∀ i t, i ∈ free s → i ∈ s.cons (.tr t) → ∃ v, s'.vals[i]? = some (some v) ∧ v ∈ Transform.Dom (sem t)) ∧
    SCG.NotAbove (F s'.vals) (F s.vals) ∧
    (scgRun sem g F tol maxiters junk s).log.head? = some (F s.vals) ∧
    (scgRun sem g F tol maxiters junk s).log.getLast? = some (F s'.vals) ∧
    (scgRun sem g F tol maxiters junk s).log.IsChain (fun a b => SCG.NotAbove b a) ∧
    s'.on = true ∧ s'.grad = g s'.vals := by
  have r := h.ready
  obtain ⟨r1, h1, h2, h3, h4⟩ := prepared_akin (floatOps sem) g junk r
  have hfr : free (s.prepared (floatOps sem) g junk) = free s := by
    unfold free State.size State.cons; rw [h1, h2]
  have hsz := scgProblem_sized sem g F tol r1 h4 hg
  rw [hfr] at hsz
  set x0 := ((s.begin g).readOpt (floatOps sem) junk).2.map (·.getD 0) with hx0
  have hx0s : x0.map some = ((s.begin g).readOpt (floatOps sem) junk).2 := finite_map h.start_finite
  have hx0l : x0.length = (free s).length := by rw [hx0, List.length_map, h.listed.2.1]
  set P := scgProblem sem g F tol (s.prepared (floatOps sem) g junk) with hP
  have hrl : (SCG.run P x0 maxiters).x.length = (free s).length := by
    rw [Run.SCG.run_length (by rw [hx0l]; exact hsz), hx0l]
  have hres : (scg sem g F tol maxiters cs (s.prepared (floatOps sem) g junk)
      ((s.begin g).readOpt (floatOps sem) junk).2).2 = (SCG.run P x0 maxiters).x.map some := rfl
  have hlen : (scg sem g F tol maxiters cs (s.prepared (floatOps sem) g junk)
      ((s.begin g).readOpt (floatOps sem) junk).2).2.length = (free s).length := by
    rw [hres, List.length_map]; exact hrl
  obtain ⟨i0, hi0⟩ := List.exists_mem_of_ne_nil _ hne
  have hv : s'.vals = s.setVals (floatOps sem) ((SCG.run P x0 maxiters).x.map some) := by
    rw [hs', optimize_vals _ g junk _ r (not_all_fixed r hi0) hlen, hres]
  have hPf : ∀ x : List ℝ, P.f x = F (s.setVals (floatOps sem) (x.map some)) := by
    intro x
    show F ((s.prepared (floatOps sem) g junk).setOpt (floatOps sem) g (x.map some)).vals = _
    rw [setOpt_vals, prepared_setVals _ g junk r]
  have hf0 : P.f x0 = F s.vals := by rw [hPf, hx0s, h.start_back]
  have hf1 : P.f (SCG.run P x0 maxiters).x = F s'.vals := by rw [hPf, hv]
  obtain ⟨a1, a2, a3, a4, a5, -⟩ := optimize_any (floatOps sem) g junk (scg sem g F tol maxiters cs) r hlen
  rw [← hs'] at a1 a2 a3 a4 a5
  obtain ⟨l1, l2, l3, -⟩ := Run.SCG.scg_spec P x0 maxiters
  refine ⟨a1, a2, a3, a4, fun i t hi ht => ?_, ?_, ?_, ?_, l3, (a5 hne).1, (a5 hne).2⟩
  · rw [hs']
    exact optimize_in_domain sem hsem g junk _ r _ hres hrl hi ht
  · rw [← hf0, ← hf1]; exact Run.SCG.scg_not_worse P x0 maxiters
  · rw [← hf0]; exact l1
  · rw [← hf1]; exact l2

/-- What has to hold before so that `optimizer_array` lists the values: `never_stale_partial`, or updates are
off. -/
theorem startable_of_stale {sem : T → Transform.Tr} {g : List (Option ℝ) → List (Option ℝ)}
    {s : State (Option ℝ) T} (r : Ready s) (hstale : s.fresh = false ∨ s.on = false) (junk : List (Option ℝ))
    (hw : ∀ i t, i ∈ free s → i ∈ s.cons (.tr t) → ∃ v, s.vals[i]? = some (some v) ∧ WithinC16 (sem t) v)
    (hfin : ∀ i, i ∈ free s → ∃ v, s.vals[i]? = some (some v)) : Startable sem g junk s := by
  refine ⟨r, hfin, hw, ?_⟩
  obtain ⟨h1, h2, h3, -⟩ := begin_eq g s
  have hf : (s.begin g).fresh = false := by
    unfold State.begin
    cases hon : s.on with
    | true =>
      rcases hstale with h | h
      · exact h
      · rw [hon] at h; cases h
    | false =>
      simp only [Bool.false_eq_true, if_false]
      show ((({ s with on := true } : State (Option ℝ) T)).notify g).fresh = false
      rw [notify_fresh]; rfl
  have hl := read_lists_free (floatOps sem) (begin_ready (floatOps sem) g r) hf junk
  unfold ListsFree free Via State.size State.cons at hl ⊢
  rw [h1, h2, h3] at hl
  exact hl

/-! ### Examples -/

/-- The model of the examples with all values 1, positive values wanted for three of them. -/
theorem demoReal_startable : Startable (fun _ => .exponent) id [] demoReal := by
  have hv : ∀ i, i ∈ free demoReal → demoReal.vals[i]? = some (some 1) := by
    intro i hi
    have h : i < 8 := (mem_free.mp hi).1
    show (List.replicate 8 (some (1 : ℝ)))[i]? = _
    rw [List.getElem?_replicate, if_pos h]
  refine startable_of_stale demoReal_ready (Or.inl rfl) [] (fun i t hi _ => ⟨1, hv i hi, ?_⟩)
    (fun i hi => ⟨1, hv i hi⟩)
  refine ⟨by simp, by simp [Transform.Dom], ?_⟩
  exact ⟨by rw [Real.exp_le_one_iff]; norm_num [Transform.lim], by rw [Real.one_le_exp_iff]; norm_num [Transform.lim]⟩

theorem demoReal_free : free demoReal = [0, 1, 2, 3, 5] := by
  have : free demo = [0, 1, 2, 3, 5] := by decide +kernel
  exact this

example (F : List (Option ℝ) → SCG.Val ℝ) (tol : Tol) (n : Nat) :
    SCG.NotAbove (F (demoReal.optimize (floatOps (fun _ => .exponent)) id []
      (scg (fun _ => .exponent) id F tol n [])).vals) (F demoReal.vals) :=
  (optimize_scg_partial (fun _ => .exponent) (fun _ => trivial) id (fun _ => rfl) F tol n [] [] demoReal_startable
    (by rw [demoReal_free]; simp) _ rfl).2.2.2.2.2.1

/-- The same model with values -1/2, three of them constrained by `NegativeExponent`. -/
noncomputable def demoNeg : State (Option ℝ) Nat :=
  { demo with vals := List.replicate 8 (some (-1 / 2)), grad := List.replicate 8 (some 0), copy := none }

theorem demoNeg_ready : Ready demoNeg :=
  ⟨⟨Hier.Heap.demo_reach, demo_ready.lt, demo_ready.vals⟩, demo_ready.root, demo_ready.node, demo_ready.inInit,
    demo_ready.inited⟩

/-- The objective `-(v₁ + 2)²`. -/
noncomputable def negF (a : List (Option ℝ)) : SCG.Val ℝ :=
  match a[1]? with
  | some (some v) => .fin (-(v + 2) ^ 2)
  | _ => .nan

/-- Its gradient. -/
noncomputable def negG (a : List (Option ℝ)) : List (Option ℝ) :=
  (List.replicate a.length (some 0)).set 1 ((a.getD 1 none).map (fun v => -2 * (v + 2)))

theorem demoNeg_free : free demoNeg = [0, 1, 2, 3, 5] := by
  have : free demo = [0, 1, 2, 3, 5] := by decide +kernel
  exact this

theorem demoNeg_con : 1 ∈ demoNeg.cons (.tr 7) := by
  have : 1 ∈ demo.cons (.tr 7) := by decide +kernel
  exact this

theorem negExponent_start : Transform.Tr.negExponent.finv (-1 / 2 : ℝ) = some (Real.log 2) ∧
    Transform.Tr.negExponent.f (Real.log 2) = -2 := by
  constructor
  · show (Transform.npLog (-(-1 / 2))).map (- ·) = some _
    rw [Transform.npLog_pos (by norm_num)]
    show some (-Real.log (-(-1 / 2))) = some _
    rw [show -(-1 / 2 : ℝ) = 2⁻¹ by norm_num, Real.log_inv, neg_neg]
  · show -Transform.exponentF (Real.log 2) = -2
    have h0 : 0 ≤ Real.log 2 := Real.log_nonneg (by norm_num)
    have h1 : Real.log 2 < 2 - 1 + 1 := by
      have := Real.log_le_sub_one_of_pos (show (0 : ℝ) < 2 by norm_num); linarith
    rw [Transform.exponentF_in (by unfold Transform.lim; linarith) (by unfold Transform.lim; linarith),
      Real.exp_log (by norm_num)]

theorem negF_of {a : List (Option ℝ)} {v : ℝ} (h : a[1]? = some (some v)) : negF a = .fin (-(v + 2) ^ 2) := by
  unfold negF; rw [h]

theorem negG_at {a : List (Option ℝ)} (h : a[1]? = some (some (-2 : ℝ))) {i : Nat} {d : Option ℝ}
    (hd : (negG a)[i]? = some d) : d = some 0 := by
  unfold negG at hd
  have e2 : a.getD 1 none = some (-2 : ℝ) := by rw [List.getD_eq_getElem?_getD, h]; rfl
  have e3 : (Option.map (fun v : ℝ => -2 * (v + 2)) (some (-2))) = some 0 := by
    show some (-2 * (-2 + 2 : ℝ)) = _; norm_num
  rw [e2, e3, List.getElem?_set] at hd
  split at hd
  · split at hd
    · exact (Option.some.inj hd).symm
    · cases hd
  · rw [List.getElem?_replicate] at hd
    split at hd
    · exact (Option.some.inj hd).symm
    · cases hd

/-- Element 1 of the model, with value -1/2 and `NegativeExponent`, ends at -2. -/
theorem neg_ends {s : State (Option ℝ) Nat} (r : Ready s) (hstale : s.fresh = false) (hon : s.on = true)
    (hvals : ∀ i, i < s.size → s.vals[i]? = some (some (-1 / 2 : ℝ))) {k1 t1 : Nat} (h1k : (free s)[k1]? = some 1)
    (hcon : 1 ∈ s.cons (.tr t1)) (tol : Tol) (n : Nat) (cs : List (Call (Option ℝ))) (junk : List (Option ℝ)) :
    (s.optimize (floatOps (fun _ => .negExponent)) negG junk
      (scg (fun _ => .negExponent) negG negF tol n cs)).vals[1]? = some (some (-2 : ℝ)) := by
  set o := floatOps (T := Nat) (fun _ => Transform.Tr.negExponent) with ho
  have hg : ∀ a, (negG a).length = a.length := by intro a; unfold negG; simp
  obtain ⟨r1, h1, h2, h3, h4⟩ := prepared_akin o negG junk r
  have hb : s.begin negG = s := by unfold State.begin; rw [if_pos hon]
  have hl : ListsFree o s (s.readOpt o junk).2 := read_lists_free o r hstale junk
  have hfin : Finite (s.readOpt o junk).2 := by
    intro e he
    obtain ⟨k, hk⟩ := List.mem_iff_getElem?.mp he
    have hkl : k < (free s).length := by
      rw [← hl.2.1]; exact (List.getElem?_eq_some_iff.mp hk).1
    have hki := List.getElem?_eq_getElem hkl
    obtain ⟨v, w, a1, a2, a3⟩ := hl.2.2 k _ hki
    rw [hk] at a2; cases a2
    rw [hvals _ (mem_free.mp (List.mem_of_getElem? hki)).1] at a1
    cases a1
    by_cases ht : ∃ t, (free s)[k] ∈ s.cons (.tr t)
    · obtain ⟨t, ht⟩ := ht
      exact ⟨Real.log 2, (a3.1 t ht).trans negExponent_start.1⟩
    · exact ⟨_, a3.2 (fun t h => ht ⟨t, h⟩)⟩
  obtain ⟨v, w, a1, a2, a3⟩ := hl.2.2 k1 1 h1k
  rw [hvals 1 (mem_free.mp (List.mem_of_getElem? h1k)).1] at a1
  cases a1
  have hw : w = some (Real.log 2) := (a3.1 t1 hcon).trans negExponent_start.1
  subst hw
  set x0 := (s.readOpt o junk).2.map (·.getD 0) with hx0
  have hx0s : x0.map some = (s.readOpt o junk).2 := finite_map hfin
  have hx0l : x0.length = (free s).length := by rw [hx0, List.length_map, hl.2.1]
  have hfr : free (s.prepared o negG junk) = free s := by
    unfold free State.size State.cons; rw [h1, h2]
  have hset : (s.setVals o (x0.map some))[1]? = some (some (-2 : ℝ)) := by
    obtain ⟨x', w', b1, b2, b3⟩ := (setVals_spec o r (x0.map some)).2.2
      (by rw [List.length_map, hx0l]) k1 1 h1k
    rw [hx0s, a2] at b1; cases b1
    rw [b2, b3.1 t1 hcon]
    show some (some (Transform.Tr.negExponent.f (Real.log 2))) = _
    rw [negExponent_start.2]
  have hz : ∀ y ∈ (scgProblem (fun _ => .negExponent) negG negF tol (s.prepared o negG junk)).gradf x0, y = 0 := by
    intro y hy
    have hgr : (scgProblem (fun _ => .negExponent) negG negF tol (s.prepared o negG junk)).gradf x0 =
      ((s.prepared o negG junk).grads o negG (x0.map some)).2.map (·.getD 0) := rfl
    rw [hgr] at hy
    obtain ⟨e, he, rfl⟩ := List.mem_map.mp hy
    obtain ⟨k, hk⟩ := List.mem_iff_getElem?.mp he
    obtain ⟨hlen, hp⟩ := gradient_at_point o negG r1 h4 hg (x0.map some)
    have hkl : k < (free (s.prepared o negG junk)).length := by
      rw [← hlen]; exact (List.getElem?_eq_some_iff.mp hk).1
    have hki := List.getElem?_eq_getElem hkl
    obtain ⟨v, d, w, c1, c2, c3, c4⟩ := hp k _ hki
    have c3 : ((s.prepared o negG junk).grads o negG (x0.map some)).2[k]? = some w := c3
    rw [hk] at c3; cases c3
    rw [setOpt_vals, prepared_setVals o negG junk r] at c2
    have hd := negG_at hset c2
    subst hd
    by_cases ht : ∃ t, (free (s.prepared o negG junk))[k] ∈ (s.prepared o negG junk).cons (.tr t)
    · obtain ⟨t, ht⟩ := ht
      have := c4.1 t ht
      rw [this]
      show (v.bind (fun v => some (-(Transform.exponentGrad v 0)))).getD 0 = 0
      unfold Transform.exponentGrad
      cases v <;> simp
    · rw [c4.2 (fun t h => ht ⟨t, h⟩)]; rfl
  have hrun := Run.SCG.run_of_zero _ x0 hz n
  have hres : (scg (fun _ => .negExponent) negG negF tol n cs (s.prepared o negG junk)
      ((s.begin negG).readOpt o junk).2).2 = x0.map some := by
    unfold scg
    rw [hb, ← hx0, hrun]
  have hv := optimize_vals o negG junk (scg (fun _ => .negExponent) negG negF tol n cs) r
    (not_all_fixed r (List.mem_of_getElem? h1k)) (by rw [hres, List.length_map, hx0l])
  rw [hv, hres]
  exact hset

/-- With `NegativeExponent` optimising may end worse than it began, for any number of iterations: the value -1/2
is read as `log 2`, which stands for -2, and there the objective is at its maximum. -/
theorem optimize_worse_fails (tol : Tol) (n : Nat) (cs : List (Call (Option ℝ))) (junk : List (Option ℝ)) :
    negF demoNeg.vals = .fin (-9 / 4) ∧
    negF (demoNeg.optimize (floatOps (fun _ => .negExponent)) negG junk
      (scg (fun _ => .negExponent) negG negF tol n cs)).vals = .fin 0 := by
  have hsize : demoNeg.size = 8 := by
    have : demo.size = 8 := by decide +kernel
    exact this
  have hvals : ∀ i, i < demoNeg.size → demoNeg.vals[i]? = some (some (-1 / 2 : ℝ)) := by
    intro i hi
    rw [hsize] at hi
    show (List.replicate 8 (some (-1 / 2 : ℝ)))[i]? = _
    rw [List.getElem?_replicate, if_pos hi]
  refine ⟨?_, ?_⟩
  · rw [negF_of (hvals 1 (by rw [hsize]; norm_num))]
    norm_num
  · have := neg_ends demoNeg_ready rfl rfl hvals (k1 := 1) (by rw [demoNeg_free]; rfl) demoNeg_con tol n cs junk
    rw [negF_of this]
    norm_num

end Paramz.Opt

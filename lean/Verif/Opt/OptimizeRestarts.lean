import Verif.Opt.Optimize
import Verif.Run.Restarts
import Mathlib.Data.EReal.Basic

/-!
# Random restarts of a model with SCG (C67)

Source: `paramz/model.py:118-190` (not the parallel variant), with `optimize` as in `Verif.Opt.Optimize` and
`randomize` as in `Verif.Opt.Model`.
-/

set_option linter.unusedSectionVars false

namespace Paramz.Opt

open Hier (Heap Con Id)
open Run (SCG.Val SCG.Problem SCG.Result SCG.run SCG.NotAbove)

variable {V T : Type} [DecidableEq T]

/-! ### Model -/

/-- Floats as `np.argmin` compares them. -/
noncomputable def toObj : SCG.Val ℝ → Run.Obj EReal
  | .fin q => .num (q : EReal)
  | .pinf => .num ⊤
  | .ninf => .num ⊥
  | .nan => .nan

/-- `f_opt` and `x_opt` of a run. Simplified: `x_opt` is an array of its own. With fixed parameters it is; without
them it may be the optimiser's copy of the model (C46, `best_run_shared_fails`). -/
structure Run1 where
  f : SCG.Val ℝ
  x : List (Option ℝ)

/-- What the calls share: the transformations, the gradient and the objective of the model, the settings of SCG,
and per pass what the generator draws and which points are evaluated. -/
structure Setting (T : Type) where
  sem : T → Transform.Tr
  g : List (Option ℝ) → List (Option ℝ)
  F : List (Option ℝ) → SCG.Val ℝ
  tol : Tol
  maxiters : Nat
  junk : List (Option ℝ)
  draws : Nat → List (Option ℝ)
  evals : Nat → List (Call (Option ℝ))

/-- The model at the start of pass `i` (model.py:170-171). -/
noncomputable def Setting.startOf (c : Setting T) (i : Nat) (s : State (Option ℝ) T) : State (Option ℝ) T :=
  if i = 0 then s else s.randomize (floatOps c.sem) c.g (c.draws i)

/-- One pass of the loop (model.py:167-182), with something to optimise. `f_opt` is the last entry of the trace
(optimization.py:242). -/
noncomputable def Setting.pass (c : Setting T) (i : Nat) (a : State (Option ℝ) T × List Run1) :
    State (Option ℝ) T × List Run1 :=
  let s := c.startOf i a.1
  let r := scgRun c.sem c.g c.F c.tol c.maxiters c.junk s
  (s.optimize (floatOps c.sem) c.g c.junk (scg c.sem c.g c.F c.tol c.maxiters (c.evals i)),
    a.2 ++ [⟨r.log.getLast?.getD .nan, r.x.map some⟩])

/-- The loop. -/
noncomputable def Setting.passes (c : Setting T) (n : Nat) (s : State (Option ℝ) T) :
    State (Option ℝ) T × List Run1 :=
  (List.range n).foldl (fun a i => c.pass i a) (s, [])

/-- `optimize_restarts(num_restarts=n)` (model.py:118-190). -/
noncomputable def Setting.restarts (c : Setting T) (n : Nat) (s : State (Option ℝ) T) : State (Option ℝ) T × List Run1 :=
  let i := s.readOpt (floatOps c.sem) c.junk
  let r := c.passes n i.1
  match r.2[Run.argmin (r.2.map (fun e => toObj e.f))]? with
  | some e => (r.1.setOpt (floatOps c.sem) c.g e.x, r.2)
  | none => (r.1.setOpt (floatOps c.sem) c.g i.2, r.2)

/-! ### Lemmas -/

theorem akin_randomize (o : Ops V T) (g : List V → List V) {s : State V T} (r : Ready s) (draws : List V) :
    Akin s (s.randomize o g draws) := by
  refine ⟨?_, ?_, (randomize_keeps_switch o g s draws).1, exec_ready (e := .randomize draws) r trivial,
    fun i hi => randomize_keeps_fixed o g r draws hi⟩ <;>
  simp [State.randomize, State.updateModel, State.setOpt]

/-- Like `Akin`, without the switch. -/
structure Like (s s' : State V T) : Prop where
  heap : s'.heap = s.heap
  root : s'.root = s.root
  ready : Ready s'
  fixed : ∀ i, i ∈ s.cons .fixed → s'.vals[i]? = s.vals[i]?

theorem Akin.like {s s' : State V T} (h : Akin s s') : Like s s' := ⟨h.heap, h.root, h.ready, h.fixed⟩

theorem Like.cons {s s' : State V T} (h : Like s s') (c : Con T) : s'.cons c = s.cons c := by
  unfold State.cons; rw [h.heap, h.root]

theorem Like.free {s s' : State V T} (h : Like s s') : free s' = free s := by
  unfold Opt.free State.size; rw [h.heap, h.root, h.cons]

theorem Like.trans {s s' s'' : State V T} (h : Like s s') (h' : Like s' s'') : Like s s'' :=
  ⟨h'.heap.trans h.heap, h'.root.trans h.root, h'.ready,
    fun i hi => (h'.fixed i (by rw [h.cons]; exact hi)).trans (h.fixed i hi)⟩

theorem Like.setVals (o : Ops V T) {s s' : State V T} (r : Ready s) (h : Like s s') {p : List V}
    (hp : p.length = (Opt.free s).length) : s'.setVals o p = s.setVals o p := by
  have ha : Akin s { s' with on := s.on } := ⟨h.heap, h.root, rfl,
    ⟨⟨h.ready.reach, h.ready.lt, h.ready.vals⟩, h.ready.root, h.ready.node, h.ready.inInit, h.ready.inited⟩, h.fixed⟩
  exact setVals_akin o r ha hp

/-- A vector read from a model has one entry per free element, whatever is stored. -/
theorem read_length (o : Ops V T) {s : State V T} (r : Ready s) {junk : List V} (hj : junk.length = s.size) :
    (s.readOpt o junk).2.length = (free s).length := by
  have hb : (s.buffer junk).length = s.size := by
    unfold State.buffer
    cases hc : s.copy with
    | none => exact hj
    | some c =>
      simp only
      split
      · assumption
      · exact hj
  have hc : (if s.fresh then s.buffer junk else finvAll o s.items s.vals s.vals).length = s.size := by
    split
    · exact hb
    · exact (optCopy_spec o r).1
  unfold State.readOpt
  simp only
  split
  · rename_i hf
    show (select _ (s.heap.ensureFixes s.root)).length = _
    rw [r.ensureFixes_eq hf, select_eq _ _ (by rw [hc, maskOf_length]), ← free_eq]
    rw [pick_length (by intro i hi; rw [hc]; exact (mem_free.mp hi).1)]
  · rename_i hf
    show (if s.fresh then s.buffer junk else finvAll o s.items s.vals s.vals).length = _
    rw [hc, free_of_no_fixes (by simpa using hf), List.length_range]

/-- One optimisation with SCG from any state: the record tells the truth about its `x_opt`. -/
theorem scg_pass (c : Setting T) (hg : ∀ a, (c.g a).length = a.length) {s : State (Option ℝ) T} (r : Ready s)
    (hj : c.junk.length = s.size) (hne : free s ≠ []) (cs : List (Call (Option ℝ))) :
    Like s (s.optimize (floatOps c.sem) c.g c.junk (scg c.sem c.g c.F c.tol c.maxiters cs)) ∧
    (s.optimize (floatOps c.sem) c.g c.junk (scg c.sem c.g c.F c.tol c.maxiters cs)).on = true ∧
    (scgRun c.sem c.g c.F c.tol c.maxiters c.junk s).x.length = (free s).length ∧
    (s.optimize (floatOps c.sem) c.g c.junk (scg c.sem c.g c.F c.tol c.maxiters cs)).vals =
      s.setVals (floatOps c.sem) ((scgRun c.sem c.g c.F c.tol c.maxiters c.junk s).x.map some) ∧
    (scgRun c.sem c.g c.F c.tol c.maxiters c.junk s).log.getLast? =
      some (c.F (s.setVals (floatOps c.sem) ((scgRun c.sem c.g c.F c.tol c.maxiters c.junk s).x.map some))) := by
  obtain ⟨r1, h1, h2, h3, h4⟩ := prepared_akin (floatOps c.sem) c.g c.junk r
  have hfr : free (s.prepared (floatOps c.sem) c.g c.junk) = free s := by
    unfold free State.size State.cons; rw [h1, h2]
  have hsz := scgProblem_sized c.sem c.g c.F c.tol r1 h4 hg
  rw [hfr] at hsz
  obtain ⟨b1, b2, b3, -⟩ := begin_eq c.g s
  have hbl : ((s.begin c.g).readOpt (floatOps c.sem) c.junk).2.length = (free s).length := by
    rw [read_length (floatOps c.sem) (begin_ready (floatOps c.sem) c.g r)
      (by rw [hj]; unfold State.size; rw [b1, b2])]
    unfold free State.size State.cons; rw [b1, b2]
  have hx0l : (((s.begin c.g).readOpt (floatOps c.sem) c.junk).2.map (·.getD (0 : ℝ))).length = (free s).length := by
    rw [List.length_map, hbl]
  have hrl : (scgRun c.sem c.g c.F c.tol c.maxiters c.junk s).x.length = (free s).length := by
    unfold scgRun
    rw [Run.SCG.run_length (by rw [hx0l]; exact hsz), hx0l]
  have hres : (scg c.sem c.g c.F c.tol c.maxiters cs (s.prepared (floatOps c.sem) c.g c.junk)
      ((s.begin c.g).readOpt (floatOps c.sem) c.junk).2).2 =
      (scgRun c.sem c.g c.F c.tol c.maxiters c.junk s).x.map some := rfl
  have hlen : (scg c.sem c.g c.F c.tol c.maxiters cs (s.prepared (floatOps c.sem) c.g c.junk)
      ((s.begin c.g).readOpt (floatOps c.sem) c.junk).2).2.length = (free s).length := by
    rw [hres, List.length_map]; exact hrl
  obtain ⟨i0, hi0⟩ := List.exists_mem_of_ne_nil _ hne
  have hv := optimize_vals (floatOps c.sem) c.g c.junk _ r (not_all_fixed r hi0) hlen
  rw [hres] at hv
  obtain ⟨a1, a2, a3, a4, a5, -⟩ := optimize_any (floatOps c.sem) c.g c.junk (scg c.sem c.g c.F c.tol c.maxiters cs) r hlen
  refine ⟨⟨a2, a3, a1, a4⟩, (a5 hne).1, hrl, hv, ?_⟩
  unfold scgRun
  rw [(Run.SCG.scg_spec _ _ c.maxiters).2.1]
  show some (c.F ((s.prepared (floatOps c.sem) c.g c.junk).setOpt (floatOps c.sem) c.g _).vals) = _
  rw [setOpt_vals, prepared_setVals _ c.g c.junk r]

/-- A record is true: `f_opt` is the objective of the model at `x_opt`, which has an entry for every free
element. -/
def TrueRun (c : Setting T) (s : State (Option ℝ) T) (e : Run1) : Prop :=
  ∃ y : List ℝ, e.x = y.map some ∧ y.length = (free s).length ∧ e.f = c.F (s.setVals (floatOps c.sem) e.x)

theorem startOf_like (c : Setting T) (i : Nat) {s : State (Option ℝ) T} (r : Ready s) : Like s (c.startOf i s) := by
  unfold Setting.startOf
  split
  · exact (Akin.refl r).like
  · exact (akin_randomize _ _ r _).like

theorem pass_true (c : Setting T) (hg : ∀ a, (c.g a).length = a.length) {s : State (Option ℝ) T} (r : Ready s)
    (hj : c.junk.length = s.size) (hne : free s ≠ []) (i : Nat) {a : State (Option ℝ) T × List Run1}
    (hl : Like s a.1) (ht : ∀ e ∈ a.2, TrueRun c s e) :
    Like s (c.pass i a).1 ∧ (c.pass i a).1.on = true ∧
    ∃ e, (c.pass i a).2 = a.2 ++ [e] ∧ TrueRun c s e := by
  have h1 := hl.trans (startOf_like c i hl.ready)
  have hsz : (c.startOf i a.1).size = s.size := by unfold State.size; rw [h1.heap, h1.root]
  obtain ⟨p1, p2, p3, -, p5⟩ := scg_pass c hg h1.ready (by rw [hj, hsz]) (by rw [h1.free]; exact hne) (c.evals i)
  rw [h1.free] at p3
  refine ⟨h1.trans p1, p2, _, rfl, _, rfl, p3, ?_⟩
  show (scgRun c.sem c.g c.F c.tol c.maxiters c.junk (c.startOf i a.1)).log.getLast?.getD .nan = _
  rw [p5]
  show c.F _ = c.F _
  rw [h1.setVals _ r (by rw [List.length_map]; exact p3)]

theorem passes_true (c : Setting T) (hg : ∀ a, (c.g a).length = a.length) {s : State (Option ℝ) T} (r : Ready s)
    (hj : c.junk.length = s.size) (hne : free s ≠ []) (n : Nat) :
    Like s (c.passes n s).1 ∧ (0 < n → (c.passes n s).1.on = true) ∧ (c.passes n s).2.length = n ∧
    ∀ e ∈ (c.passes n s).2, TrueRun c s e := by
  induction n with
  | zero => exact ⟨(Akin.refl r).like, fun h => absurd h (by omega), rfl, by simp [Setting.passes]⟩
  | succ n ih =>
    have e : c.passes (n + 1) s = c.pass n (c.passes n s) := by
      unfold Setting.passes
      rw [List.range_succ, List.foldl_append]; rfl
    obtain ⟨i1, -, i2, i3⟩ := ih
    obtain ⟨p1, p2, e', p3, p4⟩ := pass_true c hg r hj hne n i1 i3
    rw [e]
    refine ⟨p1, fun _ => p2, by rw [p3, List.length_append, i2]; rfl, fun x hx => ?_⟩
    rw [p3] at hx
    rcases List.mem_append.mp hx with hx | hx
    · exact i3 x hx
    · rw [List.mem_singleton.mp hx]; exact p4

/-- The first run is the one from the values at the beginning. -/
theorem passes_head (c : Setting T) (s : State (Option ℝ) T) (n : Nat) :
    (c.passes (n + 1) s).2.head? = (c.pass 0 (s, [])).2.head? := by
  induction n with
  | zero => rfl
  | succ n ih =>
    have e : c.passes (n + 1 + 1) s = c.pass (n + 1) (c.passes (n + 1) s) := by
      unfold Setting.passes
      rw [List.range_succ, List.foldl_append]; rfl
    rw [e, ← ih]
    have hne : (c.passes (n + 1) s).2 ≠ [] := by
      intro h0
      rw [h0] at ih
      cases ih
    show ((c.passes (n + 1) s).2 ++ _).head? = _
    rw [List.head?_append_of_ne_nil _ hne]

/-- Values that are not `nan` as extended numbers. -/
noncomputable def ext : SCG.Val ℝ → EReal
  | .fin q => (q : EReal)
  | .pinf => ⊤
  | .ninf => ⊥
  | .nan => 0

theorem toObj_ext {a : SCG.Val ℝ} (h : a ≠ .nan) : toObj a = .num (ext a) := by
  cases a <;> first | rfl | exact absurd rfl h

theorem notAbove_iff {a b : SCG.Val ℝ} (ha : a ≠ .nan) (hb : b ≠ .nan) : SCG.NotAbove a b ↔ ext a ≤ ext b := by
  cases a <;> cases b <;> simp_all [Run.SCG.NotAbove, ext]

/-! ### Properties -/

/-- C67 (partial): `m.optimize_restarts(n, optimizer='scg')` with at least one restart, for a model whose values are
finite and within the limits of C16, whose objective is never `nan`, and with at least one fixed element. There
is one record per restart and each tells the objective at its `x_opt`; the model ends at the best of them, so
the objective is not above the one at the beginning; the hierarchy and its constraints are as before; fixed
elements keep their values; free constrained elements are inside their domains; updates are on and the gradient
is the one of the values. Missing: `optimize_worse_fails`, and of C46 `best_run_nan_fails`,
`best_run_shared_fails` (without fixed elements records may share an array). -/
theorem restarts_scg_partial (c : Setting T) (hsem : ∀ t, (c.sem t).Valid) (hg : ∀ a, (c.g a).length = a.length)
    (hnan : ∀ a, c.F a ≠ .nan) {s : State (Option ℝ) T} (r : Ready s) (hc : Coherent (floatOps c.sem) s)
    (hj : c.junk.length = s.size) (hne : free s ≠ []) (_hfix : s.hasFixes = true)
    (hfin : ∀ i, i ∈ free s → ∃ v, s.vals[i]? = some (some v))
    (hw : ∀ i t, i ∈ free s → i ∈ s.cons (.tr t) → ∃ v, s.vals[i]? = some (some v) ∧ WithinC16 (c.sem t) v)
    (n : Nat) (s' : State (Option ℝ) T) (runs : List Run1) (hs' : c.restarts (n + 1) s = (s', runs)) :
    runs.length = n + 1 ∧ (∀ e ∈ runs, TrueRun c s e) ∧
    (∃ e ∈ runs, c.F s'.vals = e.f) ∧ (∀ e ∈ runs, SCG.NotAbove (c.F s'.vals) e.f) ∧
    SCG.NotAbove (c.F s'.vals) (c.F s.vals) ∧
    Ready s' ∧ s'.heap = s.heap ∧ s'.root = s.root ∧
    (∀ i, i ∈ s.cons .fixed → s'.vals[i]? = s.vals[i]?) ∧
    (∀ i t, i ∈ free s → i ∈ s.cons (.tr t) → ∃ v, s'.vals[i]? = some (some v) ∧ v ∈ Transform.Dom (c.sem t)) ∧
    s'.on = true ∧ s'.grad = c.g s'.vals := by
  set o := floatOps c.sem with ho
  set s1 := (s.readOpt o c.junk).1 with hs1
  have ha := akin_read o r c.junk
  have hvals : s1.vals = s.vals := read_vals o r c.junk
  have hc1 : Coherent o s1 := exec_coherent (o := o) (g := c.g) r (e := .read c.junk) trivial (b := false) (fun _ => hc) rfl
  have hf1 := ha.free
  have hne1 : free s1 ≠ [] := by rw [hf1]; exact hne
  have hj1 : c.junk.length = s1.size := by rw [ha.size]; exact hj
  obtain ⟨q1, q2, q3, q4⟩ := passes_true c hg ha.ready hj1 hne1 (n + 1)
  -- the first record
  have hstart : Startable c.sem c.g c.junk s1 := by
    refine ⟨ha.ready, fun i hi => ?_, fun i t hi ht => ?_, ?_⟩
    · rw [hvals]; exact hfin i (by rw [← hf1]; exact hi)
    · rw [hvals]; exact hw i t (by rw [← hf1]; exact hi) (by rw [← ha.cons]; exact ht)
    · obtain ⟨b1, b2, b3, -⟩ := begin_eq c.g s1
      have hcb : Coherent o (s1.begin c.g) := by
        unfold State.begin
        split
        · exact hc1
        · exact coherent_of_stale (by
            show ((({ s1 with on := true } : State (Option ℝ) T)).notify c.g).fresh = false
            rw [notify_fresh]; rfl)
      have hl := readOpt_lists (begin_ready o c.g ha.ready) hcb c.junk
      unfold ListsFree free Via State.size State.cons at hl ⊢
      rw [b1, b2, b3] at hl
      exact hl
  have hhead : ∃ e0, (c.passes (n + 1) s1).2.head? = some e0 ∧ SCG.NotAbove e0.f (c.F s.vals) := by
    refine ⟨_, passes_head c s1 n, ?_⟩
    have hs := optimize_scg_partial c.sem hsem c.g hg c.F c.tol c.maxiters (c.evals 0) c.junk hstart hne1 _ rfl
    show SCG.NotAbove ((scgRun c.sem c.g c.F c.tol c.maxiters c.junk s1).log.getLast?.getD .nan) _
    rw [hs.2.2.2.2.2.2.2.1, ← hvals]
    exact hs.2.2.2.2.2.1
  obtain ⟨e0, he0, hle0⟩ := hhead
  have hmem0 : e0 ∈ (c.passes (n + 1) s1).2 := List.mem_of_mem_head? he0
  have hnn : ∀ e ∈ (c.passes (n + 1) s1).2, e.f ≠ .nan := by
    intro e he; obtain ⟨y, -, -, h⟩ := q4 e he; rw [h]; exact hnan _
  -- the choice
  have hmap : (c.passes (n + 1) s1).2.map (fun e => toObj e.f) =
      ((c.passes (n + 1) s1).2.map (fun e => ext e.f)).map Run.Obj.num := by
    rw [List.map_map]
    apply List.map_congr_left
    intro e he
    exact toObj_ext (hnn e he)
  obtain ⟨v, m1, m2, -⟩ := Run.argmin_spec ((c.passes (n + 1) s1).2.map (fun e => ext e.f))
    (by intro h; rw [List.map_eq_nil_iff] at h; rw [h] at hmem0; cases hmem0)
  rw [List.getElem?_map] at m1
  obtain ⟨e, he, rfl⟩ := Option.map_eq_some_iff.mp m1
  have hres : c.restarts (n + 1) s = ((c.passes (n + 1) s1).1.setOpt o c.g e.x, (c.passes (n + 1) s1).2) := by
    unfold Setting.restarts
    simp only
    rw [← ho, ← hs1, hmap, he]
  rw [hres] at hs'
  obtain ⟨rfl, rfl⟩ := Prod.mk.inj hs'
  have hem := List.mem_of_getElem? he
  have hmin : ∀ g ∈ (c.passes (n + 1) s1).2, ext e.f ≤ ext g.f :=
    fun g hg' => m2 _ (List.mem_map_of_mem hg')
  have htrue : ∀ e ∈ (c.passes (n + 1) s1).2, TrueRun c s e := by
    intro e he
    obtain ⟨y, y1, y2, y3⟩ := q4 e he
    have y2' : y.length = (free s).length := by rw [← hf1]; exact y2
    refine ⟨y, y1, y2', ?_⟩
    rw [y3, setVals_akin o r ha (by rw [y1, List.length_map]; exact y2')]
  obtain ⟨y, y1, y2, y3⟩ := q4 e hem
  have hfinal : ((c.passes (n + 1) s1).1.setOpt o c.g e.x).vals = s1.setVals o e.x := by
    rw [setOpt_vals, q1.setVals o ha.ready (by rw [y1, List.length_map]; exact y2)]
  have hF : c.F ((c.passes (n + 1) s1).1.setOpt o c.g e.x).vals = e.f := by rw [hfinal, y3]
  have hlast := (akin_setOpt o c.g q1.ready e.x).like
  have hall := ha.like.trans (q1.trans hlast)
  have hall' : ∀ g ∈ (c.passes (n + 1) s1).2,
      SCG.NotAbove (c.F ((c.passes (n + 1) s1).1.setOpt o c.g e.x).vals) g.f := by
    intro g hg'
    rw [hF, notAbove_iff (hnn e hem) (hnn g hg')]
    exact hmin g hg'
  have hon : (c.passes (n + 1) s1).1.on = true := q2 (by omega)
  refine ⟨q3, htrue, ⟨e, hem, hF⟩, hall', Run.SCG.NotAbove.trans (hall' e0 hmem0) hle0, hall.ready, hall.heap, hall.root,
    hall.fixed, fun i t hi ht => ?_, ?_, ?_⟩
  · rw [hfinal]
    rw [← hf1] at hi
    rw [← ha.cons] at ht
    obtain ⟨k, hk⟩ := List.mem_iff_getElem?.mp hi
    obtain ⟨x, w, h1, h2, h3⟩ := (setVals_spec o ha.ready e.x).2.2 (by rw [y1, List.length_map]; exact y2) k i hk
    rw [y1, List.getElem?_map] at h1
    obtain ⟨z, -, rfl⟩ := Option.map_eq_some_iff.mp h1
    refine ⟨(c.sem t).f z, ?_, Transform.transformed_in_domain _ (hsem t) z⟩
    rw [h2, h3.1 t ht]; rfl
  · exact (akin_setOpt o c.g q1.ready e.x).on.trans hon
  · rw [setOpt_grad o c.g hon, setOpt_vals]

/-- A case that meets the hypotheses. -/
noncomputable def demoSetting (F : List (Option ℝ) → SCG.Val ℝ) : Setting Nat where
  sem _ := .exponent
  g := id
  F := F
  tol := ⟨0, 0, 0⟩
  maxiters := 10
  junk := List.replicate 8 none
  draws _ := List.replicate 5 (some 1)
  evals _ := []

example (F : List (Option ℝ) → SCG.Val ℝ) (hF : ∀ a, F a ≠ .nan) (n : Nat) :
    SCG.NotAbove (F ((demoSetting F).restarts (n + 1) demoReal).1.vals) (F demoReal.vals) := by
  have h := demoReal_startable
  exact (restarts_scg_partial (demoSetting F) (fun _ => trivial) (fun _ => rfl) hF demoReal_ready
    (coherent_of_stale rfl) (by have : demo.size = 8 := by decide +kernel
                                exact this.symm)
    (by rw [demoReal_free]; simp) (by have : demo.hasFixes = true := by decide +kernel
                                      exact this) h.finite h.within n _ _ rfl).2.2.2.2.1

end Paramz.Opt

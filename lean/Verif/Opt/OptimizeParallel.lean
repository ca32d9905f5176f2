import Verif.Opt.OptimizeRestarts
import Verif.Run.Parallel
import Verif.Opt.Coherence

/-!
# Random restarts of a model in several processes, with SCG (C85)

Source: `paramz/model.py:118-190` with `parallel=True`.
-/

set_option linter.unusedSectionVars false

namespace Paramz.Opt

open Hier (Heap Con Id)
open Run (SCG.Val SCG.Problem SCG.Result SCG.run SCG.NotAbove)

variable {V T : Type} [DecidableEq T]

/-! ### Model -/

/-- A copy of the model (pickleable.py:70-128), sent to a worker: the values and constraints are the same (C59, C60,
C70), there is no `_optimizer_copy_`, and the gradient was computed when the copy was made (pickleable.py:96).
Simplified: it is represented by the same hierarchy; that the optimiser sees no difference is C78. -/
def State.copied (g : List V → List V) (s : State V T) : State V T :=
  { s with copy := none, fresh := false, grad := if s.on then g s.vals else s.grad }

/-- Which draws job `i` of `n` starts from: the last copy is not randomized (model.py:157); `0` stands for the values of
the model. -/
def source (n i : Nat) : Nat := if i + 1 < n then i + 1 else 0

/-- What job `i` of `n` gives back: the record of its run (model.py:44-47, 157-158). -/
noncomputable def Setting.job (c : Setting T) (n : Nat) (s : State (Option ℝ) T) (i : Nat) : Run1 :=
  let r := scgRun c.sem c.g c.F c.tol c.maxiters c.junk (c.startOf (source n i) (s.copied c.g))
  ⟨r.log.getLast?.getD .nan, r.x.map some⟩

/-- `optimize_restarts(num_restarts=n, parallel=True)`, no exceptions. -/
noncomputable def Setting.parallel (c : Setting T) (n : Nat) (s : State (Option ℝ) T) : State (Option ℝ) T × List Run1 :=
  let i := s.readOpt (floatOps c.sem) c.junk
  let runs := (List.range n).map (c.job n i.1)
  match runs[Run.argmin (runs.map (fun e => toObj e.f))]? with
  | some e => (i.1.setOpt (floatOps c.sem) c.g e.x, runs)
  | none => (i.1.setOpt (floatOps c.sem) c.g i.2, runs)

/-! ### Lemmas -/

theorem copied_ready (g : List V → List V) {s : State V T} (r : Ready s) : Ready (s.copied g) :=
  ⟨⟨r.reach, r.lt, r.vals⟩, r.root, r.node, r.inInit, r.inited⟩

theorem copied_like (g : List V → List V) {s : State V T} (r : Ready s) : Like s (s.copied g) :=
  ⟨rfl, rfl, copied_ready g r, fun _ _ => rfl⟩

theorem job_true (c : Setting T) (hg : ∀ a, (c.g a).length = a.length) {s : State (Option ℝ) T} (r : Ready s)
    (hj : c.junk.length = s.size) (hne : free s ≠ []) (n i : Nat) : TrueRun c s (c.job n s i) := by
  have hl := copied_like c.g r
  have h1 := hl.trans (startOf_like c (source n i) hl.ready)
  have hsz : (c.startOf (source n i) (s.copied c.g)).size = s.size := by unfold State.size; rw [h1.heap, h1.root]
  obtain ⟨-, -, p3, -, p5⟩ := scg_pass c hg h1.ready (by rw [hj, hsz]) (by rw [h1.free]; exact hne) []
  rw [h1.free] at p3
  refine ⟨_, rfl, p3, ?_⟩
  show (scgRun c.sem c.g c.F c.tol c.maxiters c.junk (c.startOf (source n i) (s.copied c.g))).log.getLast?.getD .nan = _
  rw [p5]
  rw [h1.setVals _ r (by rw [List.length_map]; exact p3)]
  rfl

/-- The problem SCG gets depends on the hierarchy and the values only. -/
theorem scgProblem_congr (sem : T → Transform.Tr) (g : List (Option ℝ) → List (Option ℝ))
    (F : List (Option ℝ) → SCG.Val ℝ) (tol : Tol) {s s' : State (Option ℝ) T} (h1 : s'.heap = s.heap)
    (h2 : s'.root = s.root) (h3 : s'.vals = s.vals) (hon : s.on = true) (hon' : s'.on = true) :
    scgProblem sem g F tol s' = scgProblem sem g F tol s := by
  have hv : ∀ p, s'.setVals (floatOps sem) p = s.setVals (floatOps sem) p := by
    intro p
    unfold State.setVals State.setterMask State.hasFixes State.size State.items State.cons
    rw [h1, h2, h3]
  have hset : ∀ p, (s'.setOpt (floatOps sem) g p).grad = (s.setOpt (floatOps sem) g p).grad := by
    intro p; rw [setOpt_grad _ g hon, setOpt_grad _ g hon', hv]
  have hm : ∀ (t : State (Option ℝ) T), t.heap = s.heap → t.root = s.root → t.items = s.items ∧
      t.hasFixes = s.hasFixes ∧ t.heap.fixes t.root = s.heap.fixes s.root := by
    intro t h1 h2
    unfold State.items State.hasFixes State.cons
    rw [h1, h2]; exact ⟨rfl, rfl, rfl⟩
  have hgr : ∀ p, (s'.grads (floatOps sem) g p).2 = (s.grads (floatOps sem) g p).2 := by
    intro p
    have k1 := hm (s.setOpt (floatOps sem) g p) (by simp [State.setOpt]) (by simp [State.setOpt])
    have k2 := hm (s'.setOpt (floatOps sem) g p) (by simp [State.setOpt, h1]) (by simp [State.setOpt, h2])
    show ((s'.setOpt (floatOps sem) g p).transformGradients _ _).2 =
      ((s.setOpt (floatOps sem) g p).transformGradients _ _).2
    unfold State.transformGradients
    simp only
    rw [k1.1, k1.2.1, k1.2.2, k2.1, k2.2.1, k2.2.2, setOpt_vals, setOpt_vals, hv, hset]
  unfold scgProblem
  congr 1
  · funext x
    show F _ = F _
    rw [setOpt_vals, setOpt_vals, hv]
  · funext x
    rw [hgr]
  · rw [(hm s' h1 h2).2.1]
  · funext x
    show (s'.setOpt (floatOps sem) g _).grad.map _ = (s.setOpt (floatOps sem) g _).grad.map _
    rw [hset]

theorem begin_coherent (o : Ops V T) (g : List V → List V) {s : State V T} (h : Coherent o s) :
    Coherent o (s.begin g) := by
  unfold State.begin
  split
  · exact h
  · exact coherent_of_stale (by
      show ((({ s with on := true } : State V T)).notify g).fresh = false
      rw [notify_fresh]; rfl)

/-- Two models that differ in nothing but gradient, switch and optimiser's copy make the same run. -/
theorem scgRun_congr (c : Setting T) {s s' : State (Option ℝ) T} (r : Ready s) (r' : Ready s')
    (h1 : s'.heap = s.heap) (h2 : s'.root = s.root) (h3 : s'.vals = s.vals)
    (hc : Coherent (floatOps c.sem) s) (hc' : Coherent (floatOps c.sem) s') :
    scgRun c.sem c.g c.F c.tol c.maxiters c.junk s' = scgRun c.sem c.g c.F c.tol c.maxiters c.junk s := by
  obtain ⟨p1, p2, p3, p4, p5⟩ := prepared_akin (floatOps c.sem) c.g c.junk r
  obtain ⟨q1, q2, q3, q4, q5⟩ := prepared_akin (floatOps c.sem) c.g c.junk r'
  unfold scgRun
  rw [scgProblem_congr c.sem c.g c.F c.tol (by rw [p2, q2, h1]) (by rw [p3, q3, h2]) (by rw [p4, q4, h3]) p5 q5]
  have hb := begin_ready (floatOps c.sem) c.g r
  obtain ⟨b1, b2, b3, -⟩ := begin_eq c.g s
  obtain ⟨d1, d2, d3, -⟩ := begin_eq c.g s'
  have l1 := readOpt_lists hb (begin_coherent _ c.g hc) c.junk
  have l2 := readOpt_lists (begin_ready (floatOps c.sem) c.g r') (begin_coherent _ c.g hc') c.junk
  have e : ((s'.begin c.g).readOpt (floatOps c.sem) c.junk).2 = ((s.begin c.g).readOpt (floatOps c.sem) c.junk).2 := by
    refine ListsFree.unique (o := floatOps c.sem) hb.toHeld ?_ l1
    unfold ListsFree free Via State.size State.cons at l2 ⊢
    rw [d1, d2, d3] at l2
    rw [b1, b2, b3, ← h1, ← h2, ← h3]
    exact l2
  rw [e]

theorem randomize_stale (o : Ops V T) (g : List V → List V) (s : State V T) (draws : List V) :
    (s.randomize o g draws).fresh = false := by
  unfold State.randomize State.updateModel State.setOpt
  simp only
  rw [notify_fresh]
  simp [State.notify]

/-- The run of pass `i` is the same from any state that agrees on hierarchy and fixed values. -/
theorem startOf_run (c : Setting T) {s s' : State (Option ℝ) T} (r : Ready s) (h : Like s s') {i : Nat} (hi : i ≠ 0)
    (hd : (c.draws i).length = (free s).length) :
    scgRun c.sem c.g c.F c.tol c.maxiters c.junk (c.startOf i s') =
      scgRun c.sem c.g c.F c.tol c.maxiters c.junk (c.startOf i s) := by
  unfold Setting.startOf
  rw [if_neg hi, if_neg hi]
  have k := akin_randomize (floatOps c.sem) c.g r (c.draws i)
  have k' := akin_randomize (floatOps c.sem) c.g h.ready (c.draws i)
  refine scgRun_congr c k.ready k'.ready (by rw [k.heap, k'.heap, h.heap]) (by rw [k.root, k'.root, h.root]) ?_
    (coherent_of_stale (randomize_stale _ _ _ _)) (coherent_of_stale (randomize_stale _ _ _ _))
  rw [randomize_vals _ _ r, randomize_vals _ _ h.ready, h.setVals _ r hd]

/-- The record of pass `i`, without the passes before. -/
noncomputable def Setting.record (c : Setting T) (s : State (Option ℝ) T) (i : Nat) : Run1 :=
  ⟨(scgRun c.sem c.g c.F c.tol c.maxiters c.junk (c.startOf i s)).log.getLast?.getD .nan,
    (scgRun c.sem c.g c.F c.tol c.maxiters c.junk (c.startOf i s)).x.map some⟩

theorem passes_records (c : Setting T) (hg : ∀ a, (c.g a).length = a.length) {s : State (Option ℝ) T} (r : Ready s)
    (hj : c.junk.length = s.size) (hne : free s ≠ []) (hd : ∀ i, (c.draws i).length = (free s).length) (n : Nat) :
    (c.passes n s).2 = (List.range n).map (c.record s) := by
  induction n with
  | zero => rfl
  | succ n ih =>
    have e : c.passes (n + 1) s = c.pass n (c.passes n s) := by
      unfold Setting.passes
      rw [List.range_succ, List.foldl_append]; rfl
    obtain ⟨i1, -, -, -⟩ := passes_true c hg r hj hne n
    rw [e, List.range_succ, List.map_append, ← ih]
    show (c.passes n s).2 ++ [_] = _
    congr 1
    by_cases hn : n = 0
    · subst hn; rfl
    · simp only [List.map_cons, List.map_nil, Setting.record]
      rw [startOf_run c r i1 hn (hd n)]

theorem source_perm (n : Nat) : ((List.range n).map (source n)).Perm (List.range n) := by
  cases n with
  | zero => exact .refl _
  | succ n =>
    have h1 : (List.range (n + 1)).map (source (n + 1)) = (List.range n).map (· + 1) ++ [0] := by
      rw [List.range_succ, List.map_append]
      congr 1
      · apply List.map_congr_left
        intro i hi
        have := List.mem_range.mp hi
        simp [source, this]
      · simp [source]
    have h2 : List.range (n + 1) = 0 :: (List.range n).map (· + 1) := by
      rw [List.range_succ_eq_map]
    rw [h1, h2]
    exact List.perm_append_comm

theorem job_record (c : Setting T) {s : State (Option ℝ) T} (r : Ready s) (hc : Coherent (floatOps c.sem) s)
    (hd : ∀ i, (c.draws i).length = (free s).length) (n i : Nat) : c.job n s i = c.record s (source n i) := by
  have e : scgRun c.sem c.g c.F c.tol c.maxiters c.junk (c.startOf (source n i) (s.copied c.g)) =
      scgRun c.sem c.g c.F c.tol c.maxiters c.junk (c.startOf (source n i) s) := by
    by_cases h0 : source n i = 0
    · rw [h0]
      show scgRun c.sem c.g c.F c.tol c.maxiters c.junk (s.copied c.g) = scgRun c.sem c.g c.F c.tol c.maxiters c.junk s
      exact scgRun_congr c r (copied_ready c.g r) rfl rfl rfl hc (coherent_of_stale rfl)
    · exact startOf_run c r (copied_like c.g r) h0 (hd _)
  unfold Setting.job Setting.record
  simp only
  rw [e]

/-- The choice among true records. -/
theorem choice (c : Setting T) (hnan : ∀ a, c.F a ≠ .nan) {s : State (Option ℝ) T} {runs : List Run1}
    (hne : runs ≠ []) (ht : ∀ e ∈ runs, TrueRun c s e) :
    ∃ e, runs[Run.argmin (runs.map (fun e => toObj e.f))]? = some e ∧ ∀ g ∈ runs, SCG.NotAbove e.f g.f := by
  have hnn : ∀ e ∈ runs, e.f ≠ .nan := by
    intro e he; obtain ⟨y, -, -, h⟩ := ht e he; rw [h]; exact hnan _
  have hmap : runs.map (fun e => toObj e.f) = (runs.map (fun e => ext e.f)).map Run.Obj.num := by
    rw [List.map_map]
    apply List.map_congr_left
    intro e he
    exact toObj_ext (hnn e he)
  obtain ⟨v, m1, m2, -⟩ := Run.argmin_spec (runs.map (fun e => ext e.f)) (by simpa using hne)
  rw [List.getElem?_map] at m1
  obtain ⟨e, he, rfl⟩ := Option.map_eq_some_iff.mp m1
  refine ⟨e, by rw [hmap]; exact he, fun g hg => ?_⟩
  rw [notAbove_iff (hnn e (List.mem_of_getElem? he)) (hnn g hg)]
  exact m2 _ (List.mem_map_of_mem hg)

/-! ### Properties -/

/-- C85 (partial): `m.optimize_restarts(n, parallel=True, optimizer='scg')` with at least one restart, when no job
raises, for a model whose values are finite and within the limits of C16 and whose objective is never `nan`. There is
one record per restart and each tells the objective at its `x_opt`; the model ends at the best of them, so the
objective is not above the one at the beginning; the hierarchy and its constraints are as before; fixed elements keep
their values; free constrained elements are inside their domains; the switch for updates is as before, and if it is on
the gradient is the one of the values. Unlike in `restarts_scg_partial` there need not be a fixed element: records
come from other processes and share nothing with the model.
Missing: exceptions with `robust` (`Run.parallel_robust_fails`), nothing to optimise (`Run.parallel_nothing_fails`),
objectives that are `nan`, values outside the limits. -/
theorem parallel_scg_partial (c : Setting T) (hsem : ∀ t, (c.sem t).Valid) (hg : ∀ a, (c.g a).length = a.length)
    (hnan : ∀ a, c.F a ≠ .nan) {s : State (Option ℝ) T} (r : Ready s)
    (hj : c.junk.length = s.size) (hne : free s ≠ [])
    (hfin : ∀ i, i ∈ free s → ∃ v, s.vals[i]? = some (some v))
    (hw : ∀ i t, i ∈ free s → i ∈ s.cons (.tr t) → ∃ v, s.vals[i]? = some (some v) ∧ WithinC16 (c.sem t) v)
    (n : Nat) (s' : State (Option ℝ) T) (runs : List Run1) (hs' : c.parallel (n + 1) s = (s', runs)) :
    runs.length = n + 1 ∧ (∀ e ∈ runs, TrueRun c s e) ∧
    (∃ e ∈ runs, c.F s'.vals = e.f) ∧ (∀ e ∈ runs, SCG.NotAbove (c.F s'.vals) e.f) ∧
    SCG.NotAbove (c.F s'.vals) (c.F s.vals) ∧
    Ready s' ∧ s'.heap = s.heap ∧ s'.root = s.root ∧
    (∀ i, i ∈ s.cons .fixed → s'.vals[i]? = s.vals[i]?) ∧
    (∀ i t, i ∈ free s → i ∈ s.cons (.tr t) → ∃ v, s'.vals[i]? = some (some v) ∧ v ∈ Transform.Dom (c.sem t)) ∧
    s'.on = s.on ∧ (s.on = true → s'.grad = c.g s'.vals) := by
  set o := floatOps c.sem with ho
  set s1 := (s.readOpt o c.junk).1 with hs1
  have ha := akin_read o r c.junk
  have hvals : s1.vals = s.vals := read_vals o r c.junk
  have hf1 := ha.free
  have hne1 : free s1 ≠ [] := by rw [hf1]; exact hne
  have hj1 : c.junk.length = s1.size := by rw [ha.size]; exact hj
  have ht1 : ∀ e ∈ (List.range (n + 1)).map (c.job (n + 1) s1), TrueRun c s1 e := by
    intro e he
    obtain ⟨i, -, rfl⟩ := List.mem_map.mp he
    exact job_true c hg ha.ready hj1 hne1 _ _
  have htrue : ∀ e ∈ (List.range (n + 1)).map (c.job (n + 1) s1), TrueRun c s e := by
    intro e he
    obtain ⟨y, y1, y2, y3⟩ := ht1 e he
    have y2' : y.length = (free s).length := by rw [← hf1]; exact y2
    exact ⟨y, y1, y2', by rw [y3, setVals_akin o r ha (by rw [y1, List.length_map]; exact y2')]⟩
  obtain ⟨e, he, hmin⟩ := choice c hnan (by simp) htrue
  have hres : c.parallel (n + 1) s = (s1.setOpt o c.g e.x, (List.range (n + 1)).map (c.job (n + 1) s1)) := by
    unfold Setting.parallel
    simp only
    rw [← ho, ← hs1, he]
  rw [hres] at hs'
  obtain ⟨rfl, rfl⟩ := Prod.mk.inj hs'
  have hem := List.mem_of_getElem? he
  obtain ⟨y, y1, y2, y3⟩ := ht1 e hem
  have hF : c.F (s1.setOpt o c.g e.x).vals = e.f := by rw [setOpt_vals, y3]
  have hlast := akin_setOpt o c.g ha.ready e.x
  have hall := ha.trans hlast
  -- the last job starts from the values of the model
  have hjob : c.job (n + 1) s1 n ∈ (List.range (n + 1)).map (c.job (n + 1) s1) :=
    List.mem_map_of_mem (List.mem_range.mpr (by omega))
  have hle : SCG.NotAbove (c.job (n + 1) s1 n).f (c.F s.vals) := by
    have hl := copied_like c.g ha.ready
    have hst : Startable c.sem c.g c.junk (s1.copied c.g) := by
      refine startable_of_stale hl.ready (.inl rfl) c.junk (fun i t hi ht => ?_) (fun i hi => ?_)
      · rw [show (s1.copied c.g).vals = s.vals from hvals]
        exact hw i t (by rw [← hf1, ← hl.free]; exact hi) (by rw [← ha.cons, ← hl.cons]; exact ht)
      · rw [show (s1.copied c.g).vals = s.vals from hvals]
        exact hfin i (by rw [← hf1, ← hl.free]; exact hi)
    have hs := optimize_scg_partial c.sem hsem c.g hg c.F c.tol c.maxiters [] c.junk hst
      (by rw [hl.free]; exact hne1) _ rfl
    have e0 : source (n + 1) n = 0 := by simp [source]
    unfold Setting.job
    rw [e0]
    show SCG.NotAbove ((scgRun c.sem c.g c.F c.tol c.maxiters c.junk (s1.copied c.g)).log.getLast?.getD .nan) _
    rw [hs.2.2.2.2.2.2.2.1, ← hvals]
    exact hs.2.2.2.2.2.1
  refine ⟨by simp, htrue, ⟨e, hem, hF⟩, fun x hx => by rw [hF]; exact hmin x hx,
    Run.SCG.NotAbove.trans (by rw [hF]; exact hmin _ hjob) hle, hall.ready, hall.heap, hall.root, hall.fixed,
    fun i t hi ht => ?_, hall.on, fun hon => ?_⟩
  · rw [setOpt_vals]
    rw [← hf1] at hi
    rw [← ha.cons] at ht
    obtain ⟨k, hk⟩ := List.mem_iff_getElem?.mp hi
    obtain ⟨x, w, h1, h2, h3⟩ := (setVals_spec o ha.ready e.x).2.2 (by rw [y1, List.length_map]; exact y2) k i hk
    rw [y1, List.getElem?_map] at h1
    obtain ⟨z, -, rfl⟩ := Option.map_eq_some_iff.mp h1
    refine ⟨(c.sem t).f z, ?_, Transform.transformed_in_domain _ (hsem t) z⟩
    rw [h2, h3.1 t ht]; rfl
  · rw [setOpt_grad o c.g (ha.on.trans hon), setOpt_vals]

/-- C85: with the same random draws the serial and the parallel variant make the same runs, recorded in a different
order, and end with the same objective (for a model with at least one fixed element, see C67). -/
theorem parallel_agrees (c : Setting T) (hg : ∀ a, (c.g a).length = a.length)
    (hnan : ∀ a, c.F a ≠ .nan) {s : State (Option ℝ) T} (r : Ready s) (hc : Coherent (floatOps c.sem) s)
    (hj : c.junk.length = s.size) (hne : free s ≠ []) (_hfix : s.hasFixes = true)
    (hd : ∀ i, (c.draws i).length = (free s).length) (n : Nat) :
    ((c.parallel n s).2).Perm (c.restarts n s).2 ∧
    c.F (c.parallel (n + 1) s).1.vals = c.F (c.restarts (n + 1) s).1.vals := by
  set o := floatOps c.sem with ho
  set s1 := (s.readOpt o c.junk).1 with hs1
  have ha := akin_read o r c.junk
  have hc1 : Coherent o s1 := exec_coherent (o := o) (g := c.g) r (e := .read c.junk) trivial (b := false) (fun _ => hc) rfl
  have hf1 := ha.free
  have hne1 : free s1 ≠ [] := by rw [hf1]; exact hne
  have hj1 : c.junk.length = s1.size := by rw [ha.size]; exact hj
  have hd1 : ∀ i, (c.draws i).length = (free s1).length := by rw [hf1]; exact hd
  have hser : ∀ n, (c.passes n s1).2 = (List.range n).map (c.record s1) :=
    passes_records c hg ha.ready hj1 hne1 hd1
  have hpar : ∀ n, (List.range n).map (c.job n s1) = ((List.range n).map (source n)).map (c.record s1) := by
    intro n
    rw [List.map_map]
    apply List.map_congr_left
    intro i _
    exact job_record c ha.ready hc1 hd1 n i
  have hp : ∀ n, ((List.range n).map (c.job n s1)).Perm (c.passes n s1).2 := by
    intro n
    rw [hpar, hser]
    exact (source_perm n).map _
  have e1 : ∀ n, (c.parallel n s).2 = (List.range n).map (c.job n s1) := by
    intro n; unfold Setting.parallel; simp only; split <;> rfl
  have e2 : ∀ n, (c.restarts n s).2 = (c.passes n s1).2 := by
    intro n; unfold Setting.restarts; simp only; split <;> rfl
  refine ⟨by rw [e1, e2]; exact hp n, ?_⟩
  obtain ⟨q1, -, q3, q4⟩ := passes_true c hg ha.ready hj1 hne1 (n + 1)
  have ht1 : ∀ e ∈ (List.range (n + 1)).map (c.job (n + 1) s1), TrueRun c s1 e := by
    intro e he
    exact q4 e ((hp (n + 1)).mem_iff.mp he)
  obtain ⟨e, he, hmin⟩ := choice c hnan (by simp) ht1
  obtain ⟨e', he', hmin'⟩ := choice c hnan (s := s1) (runs := (c.passes (n + 1) s1).2)
    (by intro h; rw [h] at q3; simp at q3) q4
  have hres : (c.parallel (n + 1) s).1 = s1.setOpt o c.g e.x := by
    unfold Setting.parallel
    simp only
    rw [← ho, ← hs1, he]
  have hres' : (c.restarts (n + 1) s).1 = (c.passes (n + 1) s1).1.setOpt o c.g e'.x := by
    unfold Setting.restarts
    simp only
    rw [← ho, ← hs1, he']
  obtain ⟨y, y1, y2, y3⟩ := ht1 e (List.mem_of_getElem? he)
  obtain ⟨z, z1, z2, z3⟩ := q4 e' (List.mem_of_getElem? he')
  rw [hres, hres', setOpt_vals, setOpt_vals, q1.setVals o ha.ready (by rw [z1, List.length_map]; exact z2),
    ← y3, ← z3]
  have m1 := hmin e' ((hp (n + 1)).mem_iff.mpr (List.mem_of_getElem? he'))
  have m2 := hmin' e ((hp (n + 1)).mem_iff.mp (List.mem_of_getElem? he))
  have n1 : e.f ≠ .nan := by rw [y3]; exact hnan _
  have n2 : e'.f ≠ .nan := by rw [z3]; exact hnan _
  rw [notAbove_iff n1 n2] at m1
  rw [notAbove_iff n2 n1] at m2
  have hx := le_antisymm m1 m2
  have : toObj e.f = toObj e'.f := by rw [toObj_ext n1, toObj_ext n2, hx]
  revert this
  cases e.f <;> cases e'.f <;> simp [toObj]

/-- A case that meets the hypotheses. -/
example (F : List (Option ℝ) → SCG.Val ℝ) (hF : ∀ a, F a ≠ .nan) (n : Nat) :
    SCG.NotAbove (F ((demoSetting F).parallel (n + 1) demoReal).1.vals) (F demoReal.vals) ∧
    F ((demoSetting F).parallel (n + 1) demoReal).1.vals = F ((demoSetting F).restarts (n + 1) demoReal).1.vals := by
  have h := demoReal_startable
  have hsz : (demoSetting F).junk.length = demoReal.size := by
    have : demo.size = 8 := by decide +kernel
    exact this.symm
  refine ⟨(parallel_scg_partial (demoSetting F) (fun _ => trivial) (fun _ => rfl) hF demoReal_ready hsz
    (by rw [demoReal_free]; simp) h.finite h.within n _ _ rfl).2.2.2.2.1,
    (parallel_agrees (demoSetting F) (fun _ => rfl) hF demoReal_ready (coherent_of_stale rfl) hsz
      (by rw [demoReal_free]; simp) (by have : demo.hasFixes = true := by decide +kernel
                                        exact this) (fun i => by rw [demoReal_free]; rfl) n).2⟩

end Paramz.Opt

import Verif.Mem.Twins

/-!
# C91: models with the same parameters are optimised alike
-/

set_option linter.unusedSectionVars false

namespace Paramz.Memory

open Hier (Id Graph Heap Con upd upd_same upd_ne)
open Hier.Heap (Target)
open Hier.Graph (Skel Sized At Anc)
open Opt (Ops flattened)
open Print (InOrder)

namespace State

variable {V T W : Type} [DecidableEq T] {spoil : Nat → Nat → V}

/-! ### One model -/

theorem runProg_within {o : Ops V T} {F : List V → W} {g : List V → List V} {r : Id} :
    ∀ (p : Prog V W) {s : State V T}, Path spoil s → s.Model r → p.Fits (s.freeCount r) →
      Within spoil s (runProg spoil o F g r p s).1 r
  | .done x, s, h, m, hp => setArray_within h m hp
  | .ask c k, s, h, m, hp => by
    have h1 := setArray_within (o := o) h m hp.1
    refine h1.trans (runProg_within (k _) h1.path (h1.model m) ?_)
    rw [h1.freeCount]
    exact hp.2 _

theorem optimize_keeps {o : Ops V T} {F : List V → W} {g : List V → List V} {s : State V T} (h : Path spoil s) {r : Id}
    (m : s.Model r) {p : List V → Prog V W} (hp : ∀ x, x.length = s.freeCount r → (p x).Fits (s.freeCount r))
    (copy : Option (List V)) (junk : List V) : Within spoil s (s.optimize spoil o F g copy junk p r).1 r := by
  simp only [optimize]
  split
  · exact .refl h r
  · exact runProg_within _ h m (hp _ (readArray_length h m copy junk))

/-- **C91.** Whatever the optimiser does, optimising a model changes no hierarchy, no constraint, no fixed element of the
model and no `Param` of other models, copies among them. -/
theorem optimize_within {o : Ops V T} {F : List V → W} {g : List V → List V} {s : State V T} (h : Path spoil s) {r : Id}
    (m : s.Model r) {p : List V → Prog V W} (hp : ∀ x, x.length = s.freeCount r → (p x).Fits (s.freeCount r))
    (copy : Option (List V)) (junk : List V) :
    (s.optimize spoil o F g copy junk p r).1.heap = s.heap ∧
    (∀ y i, Anc s.heap.toGraph r y → s.heap.leaf y = true → i ∈ s.heap.constraints y .fixed →
      (s.optimize spoil o F g copy junk p r).1.mem.read y i = s.mem.read y i) ∧
    ∀ y, y < s.heap.next → s.heap.leaf y = true → ¬ Anc s.heap.toGraph r y → ∀ i, i < s.heap.size y →
      (s.optimize spoil o F g copy junk p r).1.mem.read y i = s.mem.read y i := by
  have w := h.reach.heap.wf
  have key := optimize_keeps (o := o) (F := F) (g := g) h m hp copy junk
  exact ⟨key.heap, fun y i ha hl hi =>
    key.fixed y i (((Print.flattened_inOrder w.skel w.sized r).all y).mpr ⟨ha, hl⟩) hi, key.others⟩

/-! ### Two models -/

theorem runProg_alike {o : Ops V T} {F : List V → W} {g : List V → List V} (hg : ∀ v, (g v).length = v.length)
    {r r' : Id} : ∀ (p : Prog V W) {s s' : State V T}, Path spoil s → Path spoil s' → s.Model r → s'.Model r' →
      Twins s s' r r' → p.Fits (s.freeCount r) →
      (runProg spoil o F g r' p s').2 = (runProg spoil o F g r p s).2 ∧
      Twins (runProg spoil o F g r p s).1 (runProg spoil o F g r' p s').1 r r'
  | .done x, s, s', h, h', m, m', t, hp => ⟨rfl, t.setArray h h' m m' hp⟩
  | .ask c k, s, s', h, h', m, m', t, hp => by
    have h1 := setArray_within (o := o) h m hp.1
    have h2 := setArray_within (o := o) h' m' (hp.1.trans t.freeCount.symm)
    have t1 := t.setArray (o := o) h h' m m' hp.1
    have ha := t1.answer (o := o) (F := F) hg h1.path h2.path (h1.model m) (h2.model m') c
    obtain ⟨e1, e2⟩ := runProg_alike hg (o := o) (F := F) (k ((s.setArray spoil o r c.point).answer o F g r c)) h1.path
      h2.path (h1.model m) (h2.model m') t1 (by rw [h1.freeCount]; exact hp.2 _)
    simp only [runProg]
    rw [ha]
    exact ⟨by rw [e1], e2⟩

/-- **C91.** Two models, in the same or in different programs, whose `Param`s are equal and in the same order: the
optimiser starts from the same point, asks the same and gets the same answers, finds the same, and afterwards the
`Param`s are equal again. The two hierarchies may be different. Missing for the full claim: copies of the optimiser's
array that are not up to date (`stale_start_fails`). -/
theorem optimize_alike_partial {o : Ops V T} {F : List V → W} {g : List V → List V} (hg : ∀ v, (g v).length = v.length)
    {s s' : State V T} (h : Path spoil s) (h' : Path spoil s') {r r' : Id} (m : s.Model r) (m' : s'.Model r')
    (t : List.Forall₂ (Equal s s') (flattened s.heap.toGraph r) (flattened s'.heap.toGraph r'))
    {p : List V → Prog V W} (hp : ∀ x, x.length = s.freeCount r → (p x).Fits (s.freeCount r))
    (copy copy' : Option (List V)) (junk junk' : List V) :
    (s'.optimize spoil o F g copy' junk' p r').2 = (s.optimize spoil o F g copy junk p r).2 ∧
    List.Forall₂ (Equal (s.optimize spoil o F g copy junk p r).1 (s'.optimize spoil o F g copy' junk' p r').1)
      (flattened s.heap.toGraph r) (flattened s'.heap.toGraph r') := by
  have t : Twins s s' r r' := t
  have key : (s'.optimize spoil o F g copy' junk' p r').2 = (s.optimize spoil o F g copy junk p r).2 ∧
      Twins (s.optimize spoil o F g copy junk p r).1 (s'.optimize spoil o F g copy' junk' p r').1 r r' := by
    simp only [optimize]
    rw [t.fixed h h' m m', t.size h h', t.read (o := o) h h' m m' copy copy' junk junk']
    split
    · exact ⟨rfl, t⟩
    · obtain ⟨e1, e2⟩ := runProg_alike (o := o) (F := F) hg (p (s.readArray o r copy junk)) h h' m m' t
        (hp _ (readArray_length h m copy junk))
      exact ⟨by rw [e1], e2⟩
  refine ⟨key.1, ?_⟩
  have k2 := key.2
  unfold Twins at k2
  rw [(optimize_within (o := o) (F := F) (g := g) h m hp copy junk).1,
    (optimize_within (o := o) (F := F) (g := g) h' m' (p := p)
      (by rw [t.freeCount]; exact hp) copy' junk').1] at k2
  exact k2

/-! ### Copies -/

/-- A copy of a model has equal `Param`s, in the same order. -/
theorem copy_twins {s : State V T} (h : Path spoil s) {x : Id} (ok : s.heap.CopyOK x) :
    Twins s (s.copy spoil x).1 x (s.heap.copyOf x x) := by
  have w := h.reach.heap.wf
  have hh := (copy_heap spoil s x).1
  obtain ⟨-, ct⟩ := Heap.copy_shape h.reach.heap ok
  unfold Twins
  rw [flattened_copy h ok, List.forall₂_map_right_iff, List.forall₂_same]
  intro y hy
  obtain ⟨ha, hyl⟩ := ((Print.flattened_inOrder w.skel w.sized x).all y).mp hy
  exact ⟨by rw [hh]; exact ct.size y ha, fun t => by rw [hh]; exact Heap.copy_constraints h.reach.heap ok ha t,
    fun i hi => copy_values h.reach ok ha hyl hi⟩

/-- **C91.** A copy of a model is optimised like the model would have been: same start, same evaluations and answers,
same result; and each `Param` of the copy ends with the values that its original would have got. -/
theorem copy_alike {o : Ops V T} {F : List V → W} {g : List V → List V} (hg : ∀ v, (g v).length = v.length)
    {s : State V T} (h : Path spoil s) {x : Id} (m : s.Model x) (ok : s.heap.CopyOK x)
    {p : List V → Prog V W} (hp : ∀ z, z.length = s.freeCount x → (p z).Fits (s.freeCount x))
    (copy copy' : Option (List V)) (junk junk' : List V) :
    let c := (s.copy spoil x).1
    (c.optimize spoil o F g copy' junk' p (s.heap.copyOf x x)).2 = (s.optimize spoil o F g copy junk p x).2 ∧
    ∀ y, Anc s.heap.toGraph x y → s.heap.leaf y = true → ∀ i, i < s.heap.size y →
      (c.optimize spoil o F g copy' junk' p (s.heap.copyOf x x)).1.mem.read (s.heap.copyOf x y) i =
        (s.optimize spoil o F g copy junk p x).1.mem.read y i := by
  intro c
  have w := h.reach.heap.wf
  have hc : Path spoil c := .copy h ok (.inr m.done)
  obtain ⟨e1, e2⟩ := optimize_alike_partial (o := o) (F := F) hg h hc m (copy_model h m ok) (copy_twins h ok) hp
    copy copy' junk junk'
  refine ⟨e1, fun y ha hl i hi => ?_⟩
  rw [flattened_copy h ok, List.forall₂_map_right_iff, List.forall₂_same] at e2
  refine (e2 y (((Print.flattened_inOrder w.skel w.sized x).all y).mpr ⟨ha, hl⟩)).read i ?_
  rw [(optimize_within (o := o) (F := F) (g := g) h m hp copy junk).1]
  exact hi

theorem copy_keeps_model {s : State V T} (h : Path spoil s) {x : Id} (m : s.Model x) (ok : s.heap.CopyOK x) :
    (s.copy spoil x).1.Model x := by
  have hh := (copy_heap spoil s x).1
  have w := h.reach.heap.wf
  obtain ⟨k1, -, -, k4, -⟩ := Heap.copy_keeps_original h.reach.heap ok ok.lt
  obtain ⟨c, -⟩ := Heap.copy_copied w.skel ok.lt
  obtain ⟨F, M, hB⟩ := Heap.beforeCopy_eq s.heap x
  rw [hB] at c
  refine ⟨Nat.lt_of_lt_of_le m.lt (copy_next h ok), by rw [hh, k1]; exact m.root, by rw [hh, k4]; exact m.node, ?_⟩
  rw [hh]
  exact ⟨(c.inInit x m.lt).trans m.done.1, (c.inited x m.lt).trans m.done.2⟩

theorem flattenedF_kept {h h' : Heap T} (sk : Skel h.toGraph) (hk : ∀ y, y < h.next → h'.kids y = h.kids y ∧
    h'.leaf y = h.leaf y) : ∀ (n : Nat) (y : Id), y < h.next →
      Opt.flattenedF n h'.toGraph y = Opt.flattenedF n h.toGraph y
  | 0, _, _ => rfl
  | n + 1, y, hy => by
    rw [Opt.flattenedF, Opt.flattenedF]
    have e1 : h'.toGraph.leaf y = h.toGraph.leaf y := (hk y hy).2
    have e2 : h'.toGraph.kids y = h.toGraph.kids y := (hk y hy).1
    rw [e1, e2]
    split
    · rfl
    · exact List.flatMap_congr (fun c hc => flattenedF_kept sk hk n c (sk.alloc _ _ ((sk.mem_iff _ _).mp hc)).1)

/-- Copying leaves the model as it was. -/
theorem copy_keeps_twins {s : State V T} (h : Path spoil s) {x : Id} (ok : s.heap.CopyOK x) :
    Twins s (s.copy spoil x).1 x x := by
  have w := h.reach.heap.wf
  have hh := (copy_heap spoil s x).1
  have e : flattened (s.copy spoil x).1.heap.toGraph x = flattened s.heap.toGraph x := by
    obtain ⟨d, hd, hb⟩ := w.skel.rank
    unfold flattened
    rw [hh, flattenedF_kept w.skel (fun y hy => ⟨(Heap.copy_keeps_original h.reach.heap ok hy).2.1,
      (Heap.copy_keeps_original h.reach.heap ok hy).2.2.2.1⟩) _ x ok.lt]
    have hn : s.heap.next ≤ (s.heap.copy x).1.next := hh ▸ copy_next (spoil := spoil) h ok
    have e1 : (s.heap.copy x).1.toGraph.fuel = (s.heap.copy x).1.next + 1 := rfl
    have e2 : s.heap.toGraph.fuel = s.heap.next + 1 := rfl
    have e3 : s.heap.toGraph.next = s.heap.next := rfl
    refine Opt.flattenedF_stable w.skel hd hb _ _ x ?_ ?_
    · rw [e1, e3]; exact Nat.lt_of_lt_of_le (Nat.lt_succ_of_le hn) (Nat.le_add_right _ _)
    · rw [e2, e3]; exact Nat.lt_of_lt_of_le (Nat.lt_succ_self _) (Nat.le_add_right _ _)
  unfold Twins
  rw [e, List.forall₂_same]
  intro y hy
  obtain ⟨ha, hl⟩ := ((Print.flattened_inOrder w.skel w.sized x).all y).mp hy
  have hylt := lt_of_anc w.skel ok.lt ha
  obtain ⟨-, -, c3, -, c5⟩ := Heap.copy_keeps_original h.reach.heap ok hylt
  exact ⟨by rw [hh, c3], fun t => by rw [hh, c5], fun i hi => copy_keeps_values h.reach ok hylt (.inl hl) hi⟩

theorem copy_no_anc {s : State V T} (h : Path spoil s) {x : Id} (m : s.Model x) (ok : s.heap.CopyOK x) {y : Id}
    (ha : Anc s.heap.toGraph x y) : ¬ Anc (s.copy spoil x).1.heap.toGraph (s.heap.copyOf x x) y ∧
      ¬ Anc (s.copy spoil x).1.heap.toGraph x (s.heap.copyOf x y) := by
  have w := h.reach.heap.wf
  have hh := (copy_heap spoil s x).1
  have hc : Path spoil (s.copy spoil x).1 := .copy h ok (.inr m.done)
  have sk := hc.reach.heap.wf.skel
  have hylt := lt_of_anc w.skel ok.lt ha
  have r1 := (copy_model h m ok).root
  have r2 := (copy_keeps_model h m ok).root
  constructor
  · intro hA
    refine Heap.copy_apart h.reach.heap ok .refl hylt ?_
    rw [← hh]
    exact (sk.highest_eq r1 .refl).trans (sk.highest_eq r1 hA).symm
  · intro hA
    refine Heap.copy_apart h.reach.heap ok ha ok.lt ?_
    rw [← hh]
    exact (sk.highest_eq r2 hA).trans (sk.highest_eq r2 .refl).symm

/-- **C91.** Optimising the copy leaves the model as it was, and optimising the model leaves the copy as it was, so that
afterwards the copy can still be optimised from the old values. -/
theorem copy_apart {o : Ops V T} {F : List V → W} {g : List V → List V} {s : State V T} (h : Path spoil s) {x : Id}
    (m : s.Model x) (ok : s.heap.CopyOK x)
    {p : List V → Prog V W} (hp : ∀ z, z.length = s.freeCount x → (p z).Fits (s.freeCount x))
    (copy : Option (List V)) (junk : List V) :
    let c := (s.copy spoil x).1
    ∀ y, Anc s.heap.toGraph x y → s.heap.leaf y = true → ∀ i, i < s.heap.size y →
      (c.optimize spoil o F g copy junk p (s.heap.copyOf x x)).1.mem.read y i = s.mem.read y i ∧
      (c.optimize spoil o F g copy junk p x).1.mem.read (s.heap.copyOf x y) i = s.mem.read y i := by
  intro c y ha hl i hi
  have w := h.reach.heap.wf
  have hh := (copy_heap spoil s x).1
  have hc : Path spoil c := .copy h ok (.inr m.done)
  obtain ⟨-, ct⟩ := Heap.copy_shape h.reach.heap ok
  have hylt := lt_of_anc w.skel ok.lt ha
  obtain ⟨-, -, c3, c4, -⟩ := Heap.copy_keeps_original h.reach.heap ok hylt
  have tw := copy_twins h ok
  have mc := copy_model h m ok
  have mx := copy_keeps_model h m ok
  obtain ⟨n1, n2⟩ := copy_no_anc h m ok ha
  have hfx : c.freeCount x = s.freeCount x := (copy_keeps_twins h ok).freeCount
  constructor
  · rw [(optimize_within (o := o) (F := F) (g := g) hc mc (p := p) (by rw [tw.freeCount]; exact hp) copy junk).2.2 y
      (Nat.lt_of_lt_of_le hylt (copy_next h ok)) (by rw [hh, c4]; exact hl) n1 i (by rw [hh, c3]; exact hi)]
    exact copy_keeps_values h.reach ok hylt (.inl hl) hi
  · rw [(optimize_within (o := o) (F := F) (g := g) hc mx (p := p) (by rw [hfx]; exact hp) copy junk).2.2 _
      (by rw [hh]; exact (ct.fresh y ha).2) (by rw [hh, ct.leaf y ha]; exact hl) n2 i
      (by rw [hh, ct.size y ha]; exact hi)]
    exact copy_values h.reach ok ha hl hi

/-- **C91.** The model may be optimised in between, with any optimiser and any objective: the copy is still optimised like
the model would have been when the copy was made. -/
theorem copy_later {o : Ops V T} {F : List V → W} {g : List V → List V} (hg : ∀ v, (g v).length = v.length)
    {s : State V T} (h : Path spoil s) {x : Id} (m : s.Model x) (ok : s.heap.CopyOK x)
    {p : List V → Prog V W} (hp : ∀ z, z.length = s.freeCount x → (p z).Fits (s.freeCount x))
    {W' : Type} {F' : List V → W'} {g' : List V → List V} {p' : List V → Prog V W'}
    (hp' : ∀ z, z.length = s.freeCount x → (p' z).Fits (s.freeCount x))
    (copy copy' copy'' : Option (List V)) (junk junk' junk'' : List V) :
    let c := ((s.copy spoil x).1.optimize spoil o F' g' copy'' junk'' p' x).1
    (c.optimize spoil o F g copy' junk' p (s.heap.copyOf x x)).2 = (s.optimize spoil o F g copy junk p x).2 ∧
    ∀ y, Anc s.heap.toGraph x y → s.heap.leaf y = true → ∀ i, i < s.heap.size y →
      (c.optimize spoil o F g copy' junk' p (s.heap.copyOf x x)).1.mem.read (s.heap.copyOf x y) i =
        (s.optimize spoil o F g copy junk p x).1.mem.read y i := by
  intro c
  have w := h.reach.heap.wf
  have hc1 : Path spoil (s.copy spoil x).1 := .copy h ok (.inr m.done)
  have hh := (copy_heap spoil s x).1
  obtain ⟨-, ct⟩ := Heap.copy_shape h.reach.heap ok
  have hfx : (s.copy spoil x).1.freeCount x = s.freeCount x := (copy_keeps_twins h ok).freeCount
  have key := optimize_keeps (o := o) (F := F') (g := g') hc1 (copy_keeps_model h m ok) (p := p')
    (by rw [hfx]; exact hp') copy'' junk''
  have tw : Twins s c x (s.heap.copyOf x x) := by
    unfold Twins
    rw [key.heap, flattened_copy h ok, List.forall₂_map_right_iff, List.forall₂_same]
    intro y hy
    obtain ⟨ha, hl⟩ := ((Print.flattened_inOrder w.skel w.sized x).all y).mp hy
    have heap : c.heap = (s.copy spoil x).1.heap := key.heap
    refine ⟨by rw [heap, hh]; exact ct.size y ha,
      fun t => by rw [heap, hh]; exact Heap.copy_constraints h.reach.heap ok ha t, fun i hi => ?_⟩
    exact (copy_apart (o := o) (F := F') (g := g') h m ok hp' copy'' junk'' y ha hl i hi).2
  obtain ⟨e1, e2⟩ := optimize_alike_partial (o := o) (F := F) hg h key.path m (key.model (copy_model h m ok)) tw hp
    copy copy' junk junk'
  refine ⟨e1, fun y ha hl i hi => ?_⟩
  rw [key.heap, flattened_copy h ok, List.forall₂_map_right_iff, List.forall₂_same] at e2
  refine (e2 y (((Print.flattened_inOrder w.skel w.sized x).all y).mpr ⟨ha, hl⟩)).read i ?_
  rw [(optimize_keeps (o := o) (F := F) (g := g) h m hp copy junk).heap]
  exact hi

/-! ### Other hierarchies -/

/-- **C91.** `Param`s that were moved to another model, in the same order, whatever nodes are in between: it is optimised
like the first one would have been. Missing for the full claim: calls after which C35 fails. -/
theorem moved_alike_partial {o : Ops V T} {F : List V → W} {g : List V → List V} (hg : ∀ v, (g v).length = v.length)
    {s s' : State V T} (h : Path spoil s) (hm : Moved spoil s s') {r r' : Id} (m : s.Model r) (m' : s'.Model r')
    (hsame : flattened s'.heap.toGraph r' = flattened s.heap.toGraph r)
    {p : List V → Prog V W} (hp : ∀ z, z.length = s.freeCount r → (p z).Fits (s.freeCount r))
    (copy copy' : Option (List V)) (junk junk' : List V) :
    (s'.optimize spoil o F g copy' junk' p r').2 = (s.optimize spoil o F g copy junk p r).2 ∧
    ∀ y, Anc s.heap.toGraph r y → s.heap.leaf y = true → ∀ i, i < s.heap.size y →
      (s'.optimize spoil o F g copy' junk' p r').1.mem.read y i =
        (s.optimize spoil o F g copy junk p r).1.mem.read y i := by
  have w := h.reach.heap.wf
  obtain ⟨h', -, hk⟩ := hm.keeps h
  have t : Twins s s' r r' := by
    unfold Twins
    rw [hsame, List.forall₂_same]
    intro y hy
    obtain ⟨ha, hl⟩ := ((Print.flattened_inOrder w.skel w.sized r).all y).mp hy
    exact (hk y hl (lt_of_anc w.skel m.lt ha)).2
  obtain ⟨e1, e2⟩ := optimize_alike_partial (o := o) (F := F) hg h h' m m' t hp copy copy' junk junk'
  refine ⟨e1, fun y ha hl i hi => ?_⟩
  rw [hsame, List.forall₂_same] at e2
  refine (e2 y (((Print.flattened_inOrder w.skel w.sized r).all y).mpr ⟨ha, hl⟩)).read i ?_
  rw [(optimize_keeps (o := o) (F := F) (g := g) h m hp copy junk).heap]
  exact hi

/-! ### Counterexample -/

/-- After `unconstrain`, the model starts from the array for the old constraint (C32), and a copy made now, which has no
optimiser's copy and does not count as up to date (pickleable.py:106, 128), from the one for its constraints. -/
theorem stale_start_fails :
    let s := ((Opt.demo.readOpt Opt.demoOps []).1.unconstrain ⟨1, none⟩ [])
    Opt.Ready s ∧ (s.readOpt Opt.demoOps []).2 = [10, 4, 4, 5, 15] ∧
    (({ s with copy := none, fresh := false } : Opt.State Int Nat).readOpt Opt.demoOps []).2 = [10, 11, 4, 5, 15] :=
  ⟨Opt.exec_ready (o := Opt.demoOps) (g := id) (e := .unconstrain ⟨1, none⟩ [])
      (Opt.readOpt_ready Opt.demoOps Opt.demo_ready []) ⟨Hier.Heap.targetOKB_sound (by decide +kernel),
        .step .refl (by decide +kernel)⟩, by decide +kernel, by decide +kernel⟩

/-! ### Examples -/

/-- Two evaluations; then the gradients are subtracted from the point if the objective was small enough. -/
def twoSteps (x : List Nat) : Prog Nat Nat :=
  .ask (.objective (x.map (· + 1))) (fun a => .ask (.both x) (fun b =>
    if a.value.getD 0 < b.value.getD 0 then .done x
    else .done (List.zipWith (· - ·) x ((b.grads.getD []) ++ List.replicate x.length 0))))

theorem twoSteps_fits (x : List Nat) : (twoSteps x).Fits x.length := by
  refine ⟨by simp [Query.point], fun a => ⟨rfl, fun b => ?_⟩⟩
  show (if a.value.getD 0 < b.value.getD 0 then Prog.done x else Prog.done (List.zipWith (· - ·) x
    ((b.grads.getD []) ++ List.replicate x.length 0))).Fits x.length
  split
  · exact rfl
  · show (List.zipWith _ _ _).length = _
    simp

theorem seen_copyOK : seen.heap.CopyOK 0 :=
  ⟨by decide +kernel, fun p hp => by rw [show seen.heap.parent 0 = none by decide +kernel] at hp; cases hp⟩

/-- The model `seen` and its copy. Element 1 of `Param` `3` is fixed. -/
example : seen.freeCount 0 = 7 ∧ Twins seen (seen.copy demoSpoil 0).1 0 (seen.heap.copyOf 0 0) ∧
    (∀ x, x.length = seen.freeCount 0 → (twoSteps x).Fits (seen.freeCount 0)) ∧
    (seen.optimize demoSpoil plusOps List.sum (List.map (fun _ => 3)) none [] twoSteps 0).1.values 0 =
      [7, 8, 27, 31, 29, 37, 47, 48] ∧ seen.values 0 = [10, 11, 30, 31, 32, 40, 50, 51] ∧
    ((seen.copy demoSpoil 0).1.optimize demoSpoil plusOps List.sum (List.map (fun _ => 3)) none [] twoSteps
      (seen.heap.copyOf 0 0)).1.values (seen.heap.copyOf 0 0) = [7, 8, 27, 31, 29, 37, 47, 48] :=
  ⟨by decide +kernel, copy_twins seen_path seen_copyOK, fun x hx => hx ▸ twoSteps_fits x, by decide +kernel,
    by decide +kernel, by decide +kernel⟩

/-- What was asked and answered. -/
example : (seen.optimize demoSpoil plusOps List.sum (List.map (fun _ => 3)) none [] twoSteps 0).2 =
    some ([(.objective [11, 5, 31, 33, 41, 43, 44], ⟨some 262, none, false, [3, 3, 3, 3, 3, 3, 3, 3]⟩),
      (.both [10, 4, 30, 32, 40, 42, 43], ⟨some 255, some [3, 3, 3, 3, 3, 3, 3], false, [3, 3, 3, 3, 3, 3, 3, 3]⟩)],
      [7, 1, 27, 29, 37, 39, 40]) := by decide +kernel

/-- The `Param`s of `seen` in a model without a node in between. -/
def flat : State Nat Nat := seen.moves [.unlink 0 1, .unlink 0 5, .unlink 0 2, .unlink 2 3, .unlink 2 4, .newNode,
  .link 6 1 none, .link 6 3 none, .link 6 4 none, .link 6 5 none, .finishInit 6 true]

theorem flat_moved : Moved demoSpoil seen flat := Moved.run seen_path _ _ (.refl _) (by decide +kernel)

example : flat.Model 6 ∧ flattened flat.heap.toGraph 6 = flattened seen.heap.toGraph 0 ∧
    seen.heap.kids 0 = [1, 2, 5] ∧ flat.heap.kids 6 = [1, 3, 4, 5] :=
  ⟨modelB (by decide +kernel), by decide +kernel, by decide +kernel, by decide +kernel⟩

end State

end Paramz.Memory

import Verif.Hier.PickleLemmas
import Verif.Hier.Alike

/-!
# Properties of `pickle` and `load` (C70)

For every reachable state, every object `x` without parent, and every order in which the attributes of
the objects are written (`Refs`).
-/

set_option linter.unusedSectionVars false

namespace Paramz.Hier

open IndexOps (Arr Dict Iop lookup)
open Graph (Anc At Skel Sized)

namespace Heap

variable {T : Type} [DecidableEq T]

/-! ### Constraining calls on a loaded model

The entry of the fixed elements is made under the key `__fixed__`, the string `'fixed'`. A loaded
dictionary has its own copy of the string, which is equal to `__fixed__` but is not the same object. In
`_remove_from_index_operations` (indexable.py:267) the mask is updated only `if t is __fixed__`. In
`unconstrain()` the `t` are the keys of the dictionary; in `unconstrain_fixed` the `t` is `__fixed__`
itself. In the calls below `own` says that the key is the library's own string. -/

/-- One round of the loop of `_remove_from_index_operations` without the lines 267-268. -/
def dropOne (h : Heap T) (x : Target) (t : Con T) : Heap T :=
  let d := (h.iop x.obj).1
  let r := (h.iop x.obj).2.remove (h.dicts d) t (x.index h)
  { h with dicts := upd h.dicts d r.1 }

/-- `unconstrain(*transforms)` (indexable.py:256-270). -/
def unconstrainK (own : Bool) (h : Heap T) (x : Target) (ts : List (Con T)) : Heap T :=
  if ts = [] ∧ own = false then
    ((h.iop x.obj).2.properties (h.dicts (h.iop x.obj).1)).foldl (fun h t => h.dropOne x t) h
  else h.unconstrain x ts

/-- A constraining call on an object whose key of the fixed elements is (`own`) or is not the library's
own string. Only `unconstrain()` and `constrain`, which calls it (constrainable.py:151), look at keys. -/
def Call.runK (own : Bool) (h : Heap T) (x : Target) : Call T → Heap T
  | .constrain t => (h.unconstrainK own x []).addCon x (.tr t)
  | .unconstrain ts => h.unconstrainK own x ts
  | .fix => h.fix x
  | .unfix => h.unfix x

/-- Several calls. -/
def runCallsK (h : Heap T) (L : List (Bool × Target × Call T)) : Heap T :=
  L.foldl (fun h a => a.2.2.runK a.1 h a.2.1) h

/-- Equal up to masks. -/
def UpToMask (h h' : Heap T) : Prop := ∃ F, h' = { h with fixes := F }

theorem UpToMask.refl (h : Heap T) : UpToMask h h := ⟨h.fixes, rfl⟩

theorem UpToMask.symm {h h' : Heap T} : UpToMask h h' → UpToMask h' h := by
  rintro ⟨F, rfl⟩; exact ⟨h.fixes, rfl⟩

theorem UpToMask.trans {h h' h'' : Heap T} : UpToMask h h' → UpToMask h' h'' → UpToMask h h'' := by
  rintro ⟨F, rfl⟩ ⟨G, rfl⟩; exact ⟨G, rfl⟩

theorem setRootMask_upTo (h : Heap T) (x : Target) (index : Arr) (b : Bool) :
    UpToMask h (h.setRootMask x index b) := by
  unfold setRootMask
  split
  · exact .refl h
  · exact ⟨_, rfl⟩

theorem unconstrainOne_upTo (h : Heap T) (x : Target) (t : Con T) :
    UpToMask (h.dropOne x t) (h.unconstrainOne x t) := by
  unfold unconstrainOne
  simp only []
  split
  · exact setRootMask_upTo _ _ _ _
  · exact .refl _

theorem dropOne_congr {h h' : Heap T} (e : UpToMask h h') (x : Target) (t : Con T) :
    UpToMask (h.dropOne x t) (h'.dropOne x t) := by
  obtain ⟨F, rfl⟩ := e
  exact ⟨F, rfl⟩

theorem fold_upTo (x : Target) (ts : List (Con T)) : ∀ {h h' : Heap T}, UpToMask h h' →
    UpToMask (ts.foldl (fun h t => h.dropOne x t) h) (ts.foldl (fun h t => h.unconstrainOne x t) h') := by
  induction ts with
  | nil => exact fun e => e
  | cons t ts ih => exact fun e => ih ((dropOne_congr e x t).trans (unconstrainOne_upTo _ x t))

theorem fold_dropOne (x : Target) (ts : List (Con T)) : ∀ {h h' : Heap T}, UpToMask h h' →
    UpToMask (ts.foldl (fun h t => h.dropOne x t) h) (ts.foldl (fun h t => h.dropOne x t) h') := by
  induction ts with
  | nil => exact fun e => e
  | cons t ts ih => exact fun e => ih (dropOne_congr e x t)

theorem unconstrain_upTo {h h' : Heap T} (e : UpToMask h h') (own : Bool) (x : Target)
    (ts : List (Con T)) : UpToMask (h.unconstrain x ts) (h'.unconstrainK own x ts) := by
  have key : UpToMask ((if ts = [] then (h.iop x.obj).2.properties (h.dicts (h.iop x.obj).1)
      else ts).foldl (fun h t => h.dropOne x t) h) (h.unconstrain x ts) := fold_upTo x _ (.refl h)
  refine key.symm.trans ?_
  obtain ⟨F, rfl⟩ := e
  unfold unconstrainK
  by_cases h1 : ts = [] ∧ own = false
  · rw [if_pos h1, if_pos h1.1]
    exact fold_dropOne x _ ⟨F, rfl⟩
  · rw [if_neg h1]
    exact fold_upTo x _ ⟨F, rfl⟩

theorem addCon_upTo {h h' : Heap T} (e : UpToMask h h') (x : Target) (t : Con T) :
    UpToMask (h.addCon x t) (h'.addCon x t) := by
  obtain ⟨F, rfl⟩ := e
  exact ⟨F, rfl⟩

theorem setRootMask_congr {h h' : Heap T} (e : UpToMask h h') (x : Target) (i j : Arr) (b c : Bool) :
    UpToMask (h.setRootMask x i b) (h'.setRootMask x j c) :=
  (setRootMask_upTo h x i b).symm.trans (e.trans (setRootMask_upTo h' x j c))

/-- Which string the key is has an effect on masks only. -/
theorem Call.runK_upTo {h h' : Heap T} (e : UpToMask h h') (own : Bool) (x : Target) (k : Call T) :
    UpToMask (k.run h x) (k.runK own h' x) := by
  cases k with
  | constrain t => exact addCon_upTo (unconstrain_upTo e own x []) x _
  | unconstrain ts => exact unconstrain_upTo e own x ts
  | fix => exact setRootMask_congr (addCon_upTo e x _) x _ _ _ _
  | unfix =>
    refine setRootMask_congr ?_ x _ _ _ _
    have := unconstrain_upTo e true x [.fixed]
    unfold unconstrainK at this
    rw [if_neg (by simp)] at this
    exact this

theorem runCallsK_upTo (L : List (Bool × Target × Call T)) : ∀ {h h' : Heap T}, UpToMask h h' →
    UpToMask (h.runCalls (L.map fun a => a.2)) (h'.runCallsK L) := by
  induction L with
  | nil => exact fun e => e
  | cons a L ih => exact fun e => ih (Call.runK_upTo e a.1 a.2.1 a.2.2)

theorem UpToMask.constraints {h h' : Heap T} (e : UpToMask h h') (y : Id) (t : Con T) :
    h'.constraints y t = h.constraints y t := by
  obtain ⟨F, rfl⟩ := e; rfl

/-! ### Without fixed elements the key does not matter -/

theorem fold_dropOne_eq (x : Target) (ts : List (Con T)) (hts : Con.fixed ∉ ts) : ∀ h : Heap T,
    ts.foldl (fun h t => h.dropOne x t) h = ts.foldl (fun h t => h.unconstrainOne x t) h := by
  induction ts with
  | nil => exact fun _ => rfl
  | cons t ts ih =>
    intro h
    simp only [List.mem_cons, not_or] at hts
    have : h.unconstrainOne x t = h.dropOne x t := by
      unfold unconstrainOne
      simp only []
      rw [if_neg (Ne.symm hts.1)]
      rfl
    rw [List.foldl_cons, List.foldl_cons, this, ih hts.2]

theorem runK_eq {h : Heap T} (w : WF h) {x : Target} (ok : x.OK h) (own : Bool) (k : Call T)
    (hk : own = true ∨ k = .fix ∨ k = .unfix ∨ (∃ ts, ts ≠ [] ∧ k = .unconstrain ts) ∨
      h.constraints x.obj .fixed = []) : k.runK own h x = k.run h x := by
  have hd : IndexOps.WF (h.dicts (h.iop x.obj).1) := by
    obtain ⟨r, o, c⟩ := ok.exists_ctx w
    rw [c.dict]; exact w.dict r c.lt c.root
  have un : ∀ ts, (own = true ∨ ts ≠ [] ∨ h.constraints x.obj .fixed = []) →
      h.unconstrainK own x ts = h.unconstrain x ts := by
    intro ts hts
    unfold unconstrainK
    split
    · rename_i h1
      rcases hts with h2 | h2 | h2
      · rw [h2] at h1; exact absurd h1.2 (by simp)
      · exact absurd h1.1 h2
      · unfold unconstrain
        rw [if_pos h1.1]
        refine fold_dropOne_eq x _ ?_ h
        rw [mem_properties _ hd]
        exact not_not.mpr h2
    · rfl
  cases k with
  | constrain t =>
    show (h.unconstrainK own x []).addCon x (.tr t) = (h.unconstrain x []).addCon x (.tr t)
    rw [un]
    rcases hk with h1 | h1 | h1 | ⟨_, _, h1⟩ | h1
    · exact .inl h1
    · cases h1
    · cases h1
    · cases h1
    · exact .inr (.inr h1)
  | unconstrain ts =>
    refine un ts ?_
    rcases hk with h1 | h1 | h1 | ⟨us, h2, h1⟩ | h1
    · exact .inl h1
    · cases h1
    · cases h1
    · cases h1; exact .inr (.inl h2)
    · exact .inr (.inr h1)
  | fix => rfl
  | unfix => rfl

/-! ### The loaded model -/

theorem copied_shape {h H : Heap T} (w : WF h) {x : Id} (c : Copied h H x) :
    CopyTree h H x (h.copyOf x) := by
  have s := w.skel
  constructor
  · intro y hy
    rw [show H.next = (h.rawCopy x).next by rw [c.graph]]
    exact ⟨copyOf_ge h x y, copyOf_lt s hy⟩
  · intro y z hy _ he; exact copyOf_inj s hy he
  · rw [show H.parent = (h.rawCopy x).parent by rw [c.graph], raw_parent_new s .refl, if_pos rfl]
  · intro y hy
    rw [show H.kids = (h.rawCopy x).kids by rw [c.graph], raw_kids_new s hy]
  · intro y p hp hy
    rw [show H.parent = (h.rawCopy x).parent by rw [c.graph], raw_child s hp hy]
  · intro y hy
    rw [show H.leaf = (h.rawCopy x).leaf by rw [c.graph], raw_leaf_new s hy]
  · intro y hy
    rw [show H.size = (h.rawCopy x).size by rw [c.graph], raw_size_new s hy]

theorem copied_twin {h H : Heap T} (w : WF h) {x : Id} (hx : x < h.next) (hp : h.parent x = none)
    (c : Copied h H x) : Twin h H x 0 x (h.copyOf x) := by
  have s := w.skel
  have ct := copied_shape w c
  refine ⟨hp, hx, .refl, ct.top, (ct.fresh x .refl).2, ?_, ct.leaf, ct.size, fun t j hj => ?_⟩
  · intro y m hm
    rw [c.graph]; exact raw_at s hm
  · rw [c.root, c.own t, mem_copy _ (w.dict x hx hp)]
    show _ ↔ j ∈ h.constraints x t
    rw [w.mem_constraints hx hp .refl]
    simp only [hj, true_and]

/-- Saving a model and loading it succeeds, and gives a separate model of the same shape. -/
theorem load_shape {h : Heap T} (hr : Reach h) {refs : Id → List Id} (hrefs : h.Refs refs) {x : Id}
    (hx : x < h.next) (hp : h.parent x = none) :
    ∃ H, h.load refs x = some (H, h.copyOf x x) ∧ CopyTree h H x (h.copyOf x) := by
  obtain ⟨H, he, c⟩ := load_copied hr.wf hrefs hx hp
  exact ⟨H, by rw [he, copyOf_self], copied_shape hr.wf c⟩

/-- What existed before loading stays as it was. -/
theorem load_keeps {h H : Heap T} (hr : Reach h) {refs : Id → List Id} (hrefs : h.Refs refs) {x x' : Id}
    (hx : x < h.next) (hp : h.parent x = none) (hl : h.load refs x = some (H, x')) {y : Id}
    (hy : y < h.next) : H.parent y = h.parent y ∧ H.kids y = h.kids y ∧ H.size y = h.size y ∧
    H.leaf y = h.leaf y ∧ H.fixes y = h.fixes y ∧ ∀ t, H.constraints y t = h.constraints y t := by
  obtain ⟨H', he, c⟩ := load_copied hr.wf hrefs hx hp
  rw [he] at hl; cases hl
  have w := hr.wf
  have s := w.skel
  refine ⟨?_, ?_, ?_, ?_, c.fixes y hy, ?_⟩
  · rw [show H.parent = (h.rawCopy x).parent by rw [c.graph]]; exact lift_old _ _ hy
  · rw [show H.kids = (h.rawCopy x).kids by rw [c.graph]]; exact lift_old _ _ hy
  · rw [show H.size = (h.rawCopy x).size by rw [c.graph]]; exact lift_old _ _ hy
  · rw [show H.leaf = (h.rawCopy x).leaf by rw [c.graph]]; exact lift_old _ _ hy
  · intro t
    obtain ⟨r, hrp, hra⟩ := s.exists_root y
    have hrlt := s.anc_lt hra hy
    obtain ⟨n, hn⟩ := s.exists_at hra
    have hd : (h.iop y).1 < h.nextDict := by
      by_cases hyr : y = r
      · subst hyr; exact (w.root y hrlt hrp).2
      · rw [w.view r y n hrlt hrp hn hyr]; exact (w.root r hrlt hrp).2
    unfold constraints
    rw [c.iop y hy, c.dicts _ hd]

/-- Every object of the loaded model has the constraints of the object it was made from, and stays equal
to it: whatever constraining calls are made on objects of `x`, made on the loaded objects instead they
lead to the same constraints (whichever string the keys of the loaded dictionary are). With `L = []` this
is the state right after loading. -/
theorem load_constraints {h H : Heap T} (hr : Reach h) {refs : Id → List Id} (hrefs : h.Refs refs)
    {x x' : Id} (hx : x < h.next) (hp : h.parent x = none) (hl : h.load refs x = some (H, x'))
    (L : List (Bool × Target × Call T)) (hL : ∀ a ∈ L, a.2.1.OK h ∧ Anc h.toGraph x a.2.1.obj) {y : Id}
    (hy : Anc h.toGraph x y) (t : Con T) :
    (H.runCallsK (L.map fun a => (a.1, ⟨h.copyOf x a.2.1.obj, a.2.1.part⟩, a.2.2))).constraints
      (h.copyOf x y) t = (h.runCalls (L.map fun a => a.2)).constraints y t := by
  obtain ⟨H', he, c⟩ := load_copied hr.wf hrefs hx hp
  rw [he] at hl; cases hl
  have w := hr.wf
  have w' := w.copied hx c
  obtain ⟨v, v', q, -, t'⟩ := (copied_twin w hx hp c).calls (L.map fun a => a.2) w w' (by
    intro a ha
    obtain ⟨b, hb, rfl⟩ := List.mem_map.mp ha
    exact hL b hb)
  rw [← t'.constraints v v' (by rw [q.graph]; exact hy) t,
    (runCallsK_upTo (L.map fun a => (a.1, (⟨h.copyOf x a.2.1.obj, a.2.1.part⟩ : Target), a.2.2))
      (.refl H)).constraints]
  simp only [List.map_map]
  rfl

/-- A call that the identity of the key has no influence on: the key is the library's own, or the call
is `fix`, `unfix` or `unconstrain` with arguments, or the object has no fixed elements. -/
def Plain (h : Heap T) (a : Bool × Target × Call T) : Prop :=
  a.1 = true ∨ a.2.2 = .fix ∨ a.2.2 = .unfix ∨ (∃ ts, ts ≠ [] ∧ a.2.2 = .unconstrain ts) ∨
    h.constraints a.2.1.obj .fixed = []

/-- All calls are, when they are made. -/
def AllPlain : Heap T → List (Bool × Target × Call T) → Prop
  | _, [] => True
  | h, a :: L => Plain h a ∧ AllPlain (a.2.2.run h a.2.1) L

theorem runCallsK_eq : ∀ (L : List (Bool × Target × Call T)) {h : Heap T}, WF h →
    (∀ a ∈ L, a.2.1.OK h) → AllPlain h L →
    WF (h.runCallsK L) ∧ Same h (h.runCallsK L) ∧ h.runCallsK L = h.runCalls (L.map fun a => a.2)
  | [], h, w, _, _ => ⟨w, .refl h, rfl⟩
  | a :: L, h, w, hL, hP => by
    have ok := hL a (by simp)
    have e := runK_eq w ok a.1 a.2.2 hP.1
    have ws : WF (a.2.2.run h a.2.1) ∧ Same h (a.2.2.run h a.2.1) := by
      obtain ⟨h1, h2, h3, h4⟩ := constraining_wf w ok
      cases a.2.2 with
      | constrain t => exact h1 (.tr t)
      | unconstrain ts => exact h2 ts
      | fix => exact h3
      | unfix => exact h4
    obtain ⟨h1, h2, h3⟩ := runCallsK_eq L ws.1 (fun b hb => (hL b (by simp [hb])).same ws.2) hP.2
    unfold runCallsK runCalls at *
    rw [List.foldl_cons, e]
    exact ⟨h1, ws.2.trans h2, h3⟩

/-- The optimiser gets the elements of a loaded `Parameterized` that are not fixed, right after loading
(`L = []`) and after any calls that do not take the fixing off by `unconstrain()` or `constrain`. These
are excluded: see `load_release_fails`; for a single `Param` see `load_param_mask_fails`. -/
theorem load_mask_partial {h H : Heap T} (hr : Reach h) {refs : Id → List Id} (hrefs : h.Refs refs)
    {x x' : Id} (hx : x < h.next) (hp : h.parent x = none) (hlf : h.leaf x = false)
    (hl : h.load refs x = some (H, x'))
    (L : List (Bool × Target × Call T)) (hL : ∀ a ∈ L, a.2.1.OK H) (hP : AllPlain H L) :
    (H.runCallsK L).ensureFixes x' =
      maskOf (h.size x) ((H.runCallsK L).constraints x' .fixed) := by
  obtain ⟨H', he, c⟩ := load_copied hr.wf hrefs hx hp
  rw [he] at hl; cases hl
  have w' := hr.wf.copied hx c
  have ct := copied_shape hr.wf c
  obtain ⟨v, q, -⟩ := runCallsK_eq L w' hL hP
  have hg := q.graph
  have hx0 := copyOf_self h x
  rw [← hx0]
  rw [v.ensureFixes_eq (by rw [show (H.runCallsK L).next = H.next by rw [hg]]
                           exact (ct.fresh x .refl).2)
    (by rw [show (H.runCallsK L).parent = H.parent by rw [hg]]; exact ct.top)
    (by rw [show (H.runCallsK L).leaf = H.leaf by rw [hg], ct.leaf x .refl]; exact hlf),
    show (H.runCallsK L).size = H.size by rw [hg], ct.size x .refl]

/-- Constraining calls on the loaded model have no effect on what existed before, nor the other way
round. -/
theorem load_independent {h H : Heap T} (hr : Reach h) {refs : Id → List Id} (hrefs : h.Refs refs)
    {x x' : Id} (hx : x < h.next) (hp : h.parent x = none) (hl : h.load refs x = some (H, x'))
    (own : Bool) (k : Call T) {z : Target} (okz : z.OK H) (t : Con T) :
    ((∃ y, Anc h.toGraph x y ∧ z.obj = h.copyOf x y) → ∀ y, y < h.next →
      (k.runK own H z).constraints y t = h.constraints y t) ∧
    (z.obj < h.next → ∀ y, Anc h.toGraph x y →
      (k.runK own H z).constraints (h.copyOf x y) t = h.constraints y t) := by
  have hkeep := fun y (hy : y < h.next) => load_keeps hr hrefs hx hp hl hy
  have hcon := fun y (hy : Anc h.toGraph x y) => load_constraints hr hrefs hx hp hl [] (by simp) hy t
  obtain ⟨H', he, c⟩ := load_copied hr.wf hrefs hx hp
  rw [he] at hl; cases hl
  have w := hr.wf
  have w' := w.copied hx c
  have s' := w'.skel
  have ct := copied_shape w c
  have hle : h.next ≤ H.next :=
    Nat.le_of_lt (Nat.lt_of_le_of_lt (ct.fresh x .refl).1 (ct.fresh x .refl).2)
  have apart : ∀ y z, Anc h.toGraph x y → z < h.next →
      H.toGraph.highest (h.copyOf x y) ≠ H.toGraph.highest z := by
    intro y z hy hz
    have h1 : Anc H.toGraph (h.copyOf x x) (h.copyOf x y) := by
      induction hy with
      | refl => exact .refl
      | step h1 h2 ih => exact ih.step (ct.parent _ _ h1 h2)
    rw [s'.highest_eq ct.top h1]
    obtain ⟨a, b⟩ := s'.highest_spec z
    have key : ∀ z, z < h.next → ∀ r, Anc H.toGraph r z → r < h.next := by
      intro z hz r hrz
      induction hrz with
      | refl => exact hz
      | @step p c h1 h2 ih =>
        apply ih
        have := (hkeep _ hz).1
        rw [show H.parent c = some p from h2] at this
        exact (w.skel.alloc _ _ this.symm).2
    intro e
    have := key z hz _ b
    rw [← e] at this
    exact absurd this (Nat.not_lt.mpr (copyOf_ge h x x))
  have els : ∀ y, y < H.next → H.toGraph.highest y ≠ H.toGraph.highest z.obj →
      (k.runK own H z).constraints y t = H.constraints y t := by
    intro y hy hne
    rw [(Call.runK_upTo (.refl H) own z k).constraints]
    obtain ⟨r, o, c⟩ := okz.exists_ctx w'
    have hna : ¬ Anc H.toGraph r y := by
      intro ha
      exact hne ((s'.highest_eq c.root ha).trans (s'.highest_eq c.root (c.pos.anc s')).symm)
    cases k with
    | constrain u => exact ((constrain_spec w' c u).2.read w' (constrain_spec w' c u).1 c hy t 0).2 hna
    | unconstrain us =>
      exact ((unconstrain_spec w' c us).2.read w' (unconstrain_spec w' c us).1 c hy t 0).2 hna
    | fix => exact ((fix_spec w' c).2.read w' (fix_spec w' c).1 c hy t 0).2 hna
    | unfix => exact ((unfix_spec w' c).2.read w' (unfix_spec w' c).1 c hy t 0).2 hna
  constructor
  · rintro ⟨y0, hy0, e⟩ y hy
    rw [els y (Nat.lt_of_lt_of_le hy hle) (by rw [e]; exact (apart y0 y hy0 hy).symm),
      (hkeep y hy).2.2.2.2.2]
  · intro hz y hy
    rw [els _ (ct.fresh y hy).2 (apart y z.obj hy hz)]
    exact hcon y hy

theorem buildAll_append {h : Heap T} {r : Id} : ∀ (L M : List Id) (s : Heap T × List Id),
    h.buildAll r L s = none → h.buildAll r (L ++ M) s = none
  | [], _, s, e => by cases e
  | y :: L, M, s, e => by
    unfold buildAll at e
    rw [List.cons_append]
    unfold buildAll
    cases hb : h.buildOne r s y with
    | none => rfl
    | some s' =>
      rw [hb] at e
      exact buildAll_append L M s' e

/-- In every state, a file saved from a part of a model cannot be loaded: the state of the parent is set
before that of the part, and connecting the part raises. -/
theorem load_part_fails {h : Heap T} (s : Skel h.toGraph) {refs : Id → List Id} (hrefs : h.Refs refs)
    {x p : Id} (hp : h.parent x = some p) : h.load refs x = none := by
  have hk : x ∈ h.kids p := (s.mem_iff _ _).mpr hp
  have hlf : h.leaf p = false := by
    cases hl : h.leaf p with
    | false => rfl
    | true =>
      have := s.leaf p hl
      rw [show h.kids p = [] from this] at hk
      simp at hk
  have hne : p ≠ x := by
    rintro rfl
    exact s.not_anc_parent hp .refl
  have hpr : p ∈ refs x := (hrefs x p).mpr (.inr hp)
  have hpos : 0 < h.next := Nat.lt_of_le_of_lt (Nat.zero_le _) (s.alloc _ _ hp).1
  obtain ⟨k, hf⟩ : ∃ k, h.toGraph.fuel = k + 2 := ⟨h.next - 1, by unfold Graph.fuel; omega⟩
  obtain ⟨l, hlist, hpl, hxl⟩ := visit_refs_first (n := k) hpr hne
  unfold load buildOrder
  simp only []
  rw [hf, hlist, buildAll_append _ _ _ (buildAll_none hlf hk l _ hpl hxl (by simp))]
  rfl

/-! ### Examples and witnesses -/

/-- One way of listing the attributes: the children, then the parent. -/
def attrs (h : Heap T) (y : Id) : List Id := h.kids y ++ (h.parent y).toList

theorem attrs_refs (h : Heap T) : h.Refs h.attrs := by
  intro y z
  unfold attrs
  cases h.parent y <;> simp [eq_comm]

/-- The model `demo`, saved and loaded. -/
def demoLoaded : Heap Nat := ((demo.load demo.attrs 0).map Prod.fst).getD Heap.empty

theorem demoLoaded_eq : demo.load demo.attrs 0 = some (demoLoaded, 6) := by
  obtain ⟨H, e, -⟩ := load_copied demo_reach.wf (attrs_refs demo) (x := 0) (by decide +kernel)
    (by decide +kernel)
  have hn : demo.next = 6 := by decide +kernel
  unfold demoLoaded
  rw [e, hn]; rfl

/-- Loading the model `demo` gives a model with the same constraints and the right mask; fixing a part of
it changes it and leaves the original. -/
example : Reach demo ∧ demo.parent 0 = none ∧ demo.load demo.attrs 0 = some (demoLoaded, 6) ∧
    demoLoaded.parent 6 = none ∧ (demoLoaded.kids 6).length = 3 ∧ demoLoaded.size 6 = 8 ∧
    demoLoaded.constraints 6 (.tr 8) = [2, 3, 4] ∧ demoLoaded.constraints 6 .fixed = [4, 6, 7] ∧
    demoLoaded.fixes 6 = some [true, true, true, true, false, true, false, false] ∧
    (demoLoaded.fix ⟨demo.copyOf 0 1, none⟩).constraints 6 .fixed = [0, 1, 4, 6, 7] ∧
    (demoLoaded.fix ⟨demo.copyOf 0 1, none⟩).constraints 0 .fixed = [4, 6, 7] :=
  ⟨demo_reach, by decide +kernel, demoLoaded_eq, by decide +kernel⟩

/-- Calls as in `load_mask_partial`. -/
example : AllPlain demoLoaded [(false, ⟨demo.copyOf 0 5, none⟩, .unfix),
    (false, ⟨demo.copyOf 0 5, none⟩, .constrain 7)] ∧
    (demoLoaded.runCallsK [(false, ⟨demo.copyOf 0 5, none⟩, .unfix),
      (false, ⟨demo.copyOf 0 5, none⟩, .constrain 7)]).ensureFixes 6 =
      [true, true, true, true, false, true, true, true] := by
  refine ⟨⟨.inr (.inr (.inl rfl)), ⟨.inr (.inr (.inr (.inr ?_))), trivial⟩⟩, ?_⟩
  · decide +kernel
  · decide +kernel

/-- In a loaded model, taking all constraints off a parameter with `unconstrain()`, or giving it another
constraint, takes the fixing off as well, but the optimiser still does not get its elements: here
parameter 5 (elements 6 and 7). In the original it does. -/
theorem load_release_fails : Reach demo ∧ demo.load demo.attrs 0 = some (demoLoaded, 6) ∧
    (demoLoaded.runCallsK [(false, ⟨demo.copyOf 0 5, none⟩, .unconstrain [])]).constraints 6 .fixed =
      [4] ∧
    (demoLoaded.runCallsK [(false, ⟨demo.copyOf 0 5, none⟩, .unconstrain [])]).ensureFixes 6 =
      [true, true, true, true, false, true, false, false] ∧
    (demoLoaded.runCallsK [(false, ⟨demo.copyOf 0 5, none⟩, .constrain 7)]).constraints 6 (.tr 7) =
      [1, 6, 7] ∧
    (demoLoaded.runCallsK [(false, ⟨demo.copyOf 0 5, none⟩, .constrain 7)]).ensureFixes 6 =
      [true, true, true, true, false, true, false, false] ∧
    (demo.runCalls [(⟨5, none⟩, .unconstrain [])]).ensureFixes 0 =
      [true, true, true, true, false, true, true, true] :=
  ⟨demo_reach, demoLoaded_eq, by decide +kernel⟩

/-- A parameter on its own with a fixed element. -/
def lone : Heap Nat := run Heap.empty [.newParam 3, .fix ⟨0, none⟩]

theorem lone_reach : Reach lone := Reach.run .empty _ (by decide +kernel)

/-- A `Param` that is saved and loaded on its own has its fixed elements, but no mask: the optimiser gets
them all. -/
theorem load_param_mask_fails : Reach lone ∧ lone.parent 0 = none ∧
    ((lone.load lone.attrs 0).map fun a => (a.2, a.1.constraints a.2 .fixed, a.1.ensureFixes a.2)) =
      some (1, [0, 1, 2], [true, true, true]) ∧
    lone.ensureFixes 0 = [false, false, false] :=
  ⟨lone_reach, by decide +kernel⟩

/-- Part 2 of `demo` cannot be saved and loaded. -/
example : demo.parent 2 = some 0 ∧ demo.load demo.attrs 2 = none :=
  ⟨by decide +kernel, load_part_fails demo_reach.wf.skel (attrs_refs demo) (p := 0) (by decide +kernel)⟩

end Heap

end Paramz.Hier

import Verif.Mem.PlanProps

/-!
# What a model does depends on what is in it, not on how it was made (C98)

Source: as for C96 (`paramz/parameterized.py:47-277`, `paramz/core/parameter_core.py:66-124, 326-350`,
`paramz/core/pickleable.py:70-95`). Specification and lemmas; nothing is modelled anew.
-/

set_option linter.unusedSectionVars false

namespace Paramz.Memory

open Hier (Id Graph Heap Con upd upd_same upd_ne)
open Hier.Heap (Target LinkOK insertPos)
open Hier.Graph (Skel Sized At Anc Ins)
open Opt (Ops flattened flattened_eq flattenedF flattenedF_stable)
open State

variable {V T W : Type} [DecidableEq T] {spoil spoil' : Nat → Nat → V}

/-! ### Specification -/

/-- `f` takes `r` and everything inside it to `r'` and everything inside that: one to one, parameters to parameters in
the same order, `Param`s to `Param`s with the same values, constraints and fixed elements. -/
structure Alike (s s' : State V T) (f : Id → Id) (r r' : Id) : Prop where
  top : f r = r'
  apart : ∀ y z, Anc s.heap.toGraph r y → Anc s.heap.toGraph r z → f y = f z → y = z
  kind : ∀ y, Anc s.heap.toGraph r y → s'.heap.leaf (f y) = s.heap.leaf y
  kids : ∀ y, Anc s.heap.toGraph r y → s'.heap.kids (f y) = (s.heap.kids y).map f
  elements : ∀ y R, Anc s.heap.toGraph r y → s.heap.leaf y = true → (s.IsRow y R ↔ s'.IsRow (f y) R)

/-- The same place in the other model. -/
def across (f : Id → Id) (x : Target) : Target := ⟨f x.obj, x.part⟩

/-- Calls that have nothing to do with the model `r`: calls on other models, making objects, copying anything. -/
def Move.Aside (r : Id) : Move V T W → Prop
  | .link _ _ _ => False
  | .unlink _ _ => False
  | .deed q _ => q ≠ r
  | _ => True

/-- Two programs that make the same calls on the models `r` and `r'`, and anything else aside. -/
inductive Parallel (f : Id → Id) (r r' : Id) : List (Move V T W) → List (Move V T W) → Prop
  | nil : Parallel f r r' [] []
  | both (d : Deed Target V T W) {ks ks' : List (Move V T W)} : Parallel f r r' ks ks' →
      Parallel f r r' (.deed r d :: ks) (.deed r' (d.map (across f)) :: ks')
  | left {m : Move V T W} {ks ks' : List (Move V T W)} : m.Aside r → Parallel f r r' ks ks' → Parallel f r r' (m :: ks) ks'
  | right {m : Move V T W} {ks ks' : List (Move V T W)} : m.Aside r' → Parallel f r r' ks ks' → Parallel f r r' ks (m :: ks')

/-- What the calls on `r` show. -/
def answers (r : Id) : List (Move V T W) → List (Option Hier.Err × Shown V W) → List (Shown V W)
  | .deed q _ :: ms, e :: es => if q = r then e.2 :: answers r ms es else answers r ms es
  | _ :: ms, _ :: es => answers r ms es
  | _, _ => []

/-! ### Lemmas -/

theorem answers_aside {r : Id} {m : Move V T W} (h : m.Aside r) (ms : List (Move V T W)) (e : Option Hier.Err × Shown V W)
    (es : List (Option Hier.Err × Shown V W)) : answers r (m :: ms) (e :: es) = answers r ms es := by
  cases m with
  | deed q d => exact if_neg h
  | _ => rfl

theorem answers_deed (r : Id) (d : Deed Target V T W) (ms : List (Move V T W)) (e : Option Hier.Err × Shown V W)
    (es : List (Option Hier.Err × Shown V W)) : answers r (.deed r d :: ms) (e :: es) = e.2 :: answers r ms es := if_pos rfl

/-- What is inside `r` is taken to what is inside `r'`. -/
theorem anc_across {g g' : Graph} (sk : Skel g) (sk' : Skel g') {f : Id → Id} {r : Id}
    (hk : ∀ y, Anc g r y → g'.kids (f y) = (g.kids y).map f) {y : Id} (hy : Anc g r y) : Anc g' (f r) (f y) := by
  induction hy with
  | refl => exact .refl
  | @step p c hp hc ih =>
    refine .step ih ((sk'.mem_iff _ _).mp ?_)
    rw [hk p hp]
    exact List.mem_map.mpr ⟨c, (sk.mem_iff _ _).mpr hc, rfl⟩

theorem flattenedF_across {g g' : Graph} (sk : Skel g) {f : Id → Id} {r : Id}
    (hl : ∀ y, Anc g r y → g'.leaf (f y) = g.leaf y)
    (hk : ∀ y, Anc g r y → g'.kids (f y) = (g.kids y).map f) : ∀ (n : Nat) (y : Id), Anc g r y →
      flattenedF n g' (f y) = (flattenedF n g y).map f
  | 0, _, _ => rfl
  | n + 1, y, hy => by
    rw [flattenedF, flattenedF, hl y hy]
    split
    · rfl
    · rw [hk y hy, List.flatMap_map, List.map_flatMap]
      exact List.flatMap_congr (fun c hc => flattenedF_across sk hl hk n c (.step hy ((sk.mem_iff _ _).mp hc)))

theorem flattened_across {g g' : Graph} (sk : Skel g) (sk' : Skel g') {f : Id → Id} {r : Id}
    (hl : ∀ y, Anc g r y → g'.leaf (f y) = g.leaf y)
    (hk : ∀ y, Anc g r y → g'.kids (f y) = (g.kids y).map f) {y : Id} (hy : Anc g r y) :
      flattened g' (f y) = (flattened g y).map f := by
  obtain ⟨d, hd, hb⟩ := sk.rank
  obtain ⟨d', hd', hb'⟩ := sk'.rank
  unfold flattened
  rw [flattenedF_stable sk hd hb g.fuel (max g.fuel g'.fuel) y (by unfold Graph.fuel; omega) (by unfold Graph.fuel; omega),
    flattenedF_stable sk' hd' hb' g'.fuel (max g.fuel g'.fuel) (f y) (by unfold Graph.fuel; omega)
      (by unfold Graph.fuel; omega)]
  exact flattenedF_across sk hl hk _ y hy

namespace Alike

variable {s s' s'' : State V T} {f f' : Id → Id} {r r' r'' : Id}

theorem anc (a : Alike s s' f r r') (sk : Skel s.heap.toGraph) (sk' : Skel s'.heap.toGraph) {y : Id}
    (hy : Anc s.heap.toGraph r y) : Anc s'.heap.toGraph r' (f y) := a.top ▸ anc_across sk sk' a.kids hy

theorem trans (a : Alike s s' f r r') (b : Alike s' s'' f' r' r'') (sk : Skel s.heap.toGraph)
    (sk' : Skel s'.heap.toGraph) : Alike s s'' (fun y => f' (f y)) r r'' where
  top := by rw [a.top, b.top]
  apart := fun y z hy hz e => a.apart y z hy hz (b.apart _ _ (a.anc sk sk' hy) (a.anc sk sk' hz) e)
  kind := fun y hy => by rw [b.kind _ (a.anc sk sk' hy), a.kind y hy]
  kids := fun y hy => by rw [b.kids _ (a.anc sk sk' hy), a.kids y hy, List.map_map]; rfl
  elements := fun y R hy hl => (a.elements y R hy hl).trans
    (b.elements (f y) R (a.anc sk sk' hy) (by rw [a.kind y hy]; exact hl))

end Alike

/-- The same on plans. -/
structure PlanAlike (s : State V T) (P P' : Plan V T) (f : Id → Id) (r r' : Id) : Prop where
  top : f r = r'
  apart : ∀ y z, Anc s.heap.toGraph r y → Anc s.heap.toGraph r z → f y = f z → y = z
  lt : ∀ y, Anc s.heap.toGraph r y → f y < P'.next
  row : ∀ y, Anc s.heap.toGraph r y → P'.row (f y) = P.row y
  kids : ∀ y, Anc s.heap.toGraph r y → P'.kids (f y) = (P.kids y).map f

theorem PlanAlike.alike {s s' : State V T} {P P' : Plan V T} {f : Id → Id} {r r' : Id} (a : PlanAlike s P P' f r r')
    (h : Path spoil s) (rp : Represents s P) (rp' : Represents s' P') (hr : r < P.next) : Alike s s' f r r' where
  top := a.top
  apart := a.apart
  kind := fun y hy => by
    have hy' : y < P.next := by rw [← rp.next]; exact lt_of_anc h.reach.heap.wf.skel (by rw [rp.next]; exact hr) hy
    rw [rp'.kind _ (a.lt y hy), a.row y hy, rp.kind y hy']
  kids := fun y hy => by
    have hy' : y < P.next := by rw [← rp.next]; exact lt_of_anc h.reach.heap.wf.skel (by rw [rp.next]; exact hr) hy
    rw [rp'.kids _ (a.lt y hy), a.kids y hy, rp.kids y hy']
  elements := fun y R hy hl => by
    have hy' : y < P.next := by rw [← rp.next]; exact lt_of_anc h.reach.heap.wf.skel (by rw [rp.next]; exact hr) hy
    rw [rp.kind y hy'] at hl
    obtain ⟨R0, hR⟩ := Option.isSome_iff_exists.mp hl
    have h1 := rp.rows y R0 hy' hR
    have h2 := rp'.rows (f y) R0 (a.lt y hy) (by rw [a.row y hy, hR])
    exact ⟨fun h => h1.unique h ▸ h2, fun h => h2.unique h ▸ h1⟩

theorem Alike.plan {s s' : State V T} {P P' : Plan V T} {f : Id → Id} {r r' : Id} (a : Alike s s' f r r')
    (h : Path spoil s) (h' : Path spoil' s') (rp : Represents s P) (rp' : Represents s' P') (hr : r < P.next)
    (hr' : r' < P'.next) : PlanAlike s P P' f r r' := by
  have sk := h.reach.heap.wf.skel
  have sk' := h'.reach.heap.wf.skel
  have lt : ∀ y, Anc s.heap.toGraph r y → y < P.next := fun y hy => by
    rw [← rp.next]; exact lt_of_anc sk (by rw [rp.next]; exact hr) hy
  have lt' : ∀ y, Anc s.heap.toGraph r y → f y < P'.next := fun y hy => by
    rw [← rp'.next]; exact lt_of_anc sk' (by rw [rp'.next]; exact hr') (a.anc sk sk' hy)
  refine ⟨a.top, a.apart, lt', fun y hy => ?_, fun y hy => ?_⟩
  · have hk := a.kind y hy
    rw [rp'.kind _ (lt' y hy), rp.kind y (lt y hy)] at hk
    cases hR : P.row y with
    | none =>
      rw [hR] at hk
      cases hR' : P'.row (f y) with
      | none => rfl
      | some R' => rw [hR'] at hk; cases hk
    | some R =>
      rw [hR] at hk
      cases hR' : P'.row (f y) with
      | none => rw [hR'] at hk; cases hk
      | some R' =>
        have h1 := rp.rows y R (lt y hy) hR
        have h2 := rp'.rows (f y) R' (lt' y hy) hR'
        have h3 := (a.elements y R hy (by rw [rp.kind y (lt y hy), hR]; rfl)).mp h1
        rw [h3.unique h2]
  · rw [← rp'.kids _ (lt' y hy), a.kids y hy, rp.kids y (lt y hy)]

/-- The `Param`s of alike models correspond. -/
theorem PlanAlike.params {s s' : State V T} {P P' : Plan V T} {f : Id → Id} {r r' : Id} (a : PlanAlike s P P' f r r')
    (h : Path spoil s) (h' : Path spoil' s') (rp : Represents s P) (rp' : Represents s' P') (hr : r < P.next) {y : Id}
    (hy : Anc s.heap.toGraph r y) : P'.params (f y) = (P.params y).map f := by
  have b := a.alike h rp rp' hr
  have sk := h.reach.heap.wf.skel
  rw [rp'.params h' (a.lt y hy), rp.params h (by rw [← rp.next]; exact lt_of_anc sk (by rw [rp.next]; exact hr) hy)]
  exact flattened_across sk h'.reach.heap.wf.skel b.kind b.kids hy

/-- The `Param`s of a place inside `r` are inside `r`. -/
theorem params_inside {s : State V T} {P : Plan V T} (h : Path spoil s) (rp : Represents s P) {y z : Id}
    (hy : y < P.next) (hz : z ∈ P.params y) : Anc s.heap.toGraph y z := by
  rw [rp.params h hy] at hz
  obtain ⟨k, hk⟩ := List.getElem?_of_mem hz
  exact (flattened_spec h (by rw [rp.next]; exact hy) hk).2.2

theorem params_of_inside {s : State V T} {P : Plan V T} (h : Path spoil s) (rp : Represents s P) {y z : Id}
    (hy : y < P.next) (hz : Anc s.heap.toGraph y z) (hl : s.heap.leaf z = true) : z ∈ P.params y := by
  rw [rp.params h hy]
  have w := h.reach.heap.wf
  exact ((Print.flattened_inOrder w.skel w.sized y).all z).mpr ⟨hz, hl⟩

theorem PlanAlike.sheet {s s' : State V T} {P P' : Plan V T} {f : Id → Id} {r r' : Id} (a : PlanAlike s P P' f r r')
    (h : Path spoil s) (h' : Path spoil' s') (rp : Represents s P) (rp' : Represents s' P') (hr : r < P.next) :
    P'.sheet r' = P.sheet r := by
  unfold Plan.sheet
  rw [← a.top, a.params h h' rp rp' hr .refl, List.map_map]
  refine List.map_congr_left (fun y hy => ?_)
  show (P'.row (f y)).getD [] = _
  rw [a.row y (params_inside h rp hr hy)]

theorem PlanAlike.spots {s s' : State V T} {P P' : Plan V T} {f : Id → Id} {r r' : Id} (a : PlanAlike s P P' f r r')
    (h : Path spoil s) (h' : Path spoil' s') (rp : Represents s P) (rp' : Represents s' P') (hr : r < P.next) {x : Target}
    (hx : Anc s.heap.toGraph r x.obj) : P'.spots r' (across f x) = P.spots r x := by
  have hxlt : x.obj < P.next := by
    rw [← rp.next]; exact lt_of_anc h.reach.heap.wf.skel (by rw [rp.next]; exact hr) hx
  funext q i
  unfold Plan.spots across
  rw [← a.top, a.params h h' rp rp' hr .refl, a.params h h' rp rp' hr hx, List.getElem?_map]
  cases hq : (P.params r)[q]? with
  | none => rfl
  | some y =>
    have hy := params_inside h rp hr (List.mem_of_getElem? hq)
    cases x.part with
    | none =>
      show decide (f y ∈ (P.params x.obj).map f) = decide (y ∈ P.params x.obj)
      refine decide_eq_decide.mpr ⟨fun hm => ?_, fun hm => List.mem_map.mpr ⟨y, hm, rfl⟩⟩
      obtain ⟨z, hz, e⟩ := List.mem_map.mp hm
      have hz' := params_inside h rp hxlt hz
      rwa [← a.apart z y (hx.trans hz') hy e]
    | some p =>
      show decide (f y = f x.obj ∧ i ∈ p) = decide (y = x.obj ∧ i ∈ p)
      exact decide_eq_decide.mpr ⟨fun hm => ⟨a.apart _ _ hy hx hm.1, hm.2⟩, fun hm => ⟨by rw [hm.1], hm.2⟩⟩

/-- The places of calls. -/
def Deed.place {P V T W : Type} : Deed P V T W → Option P
  | .assign x _ => some x
  | .put x _ => some x
  | .constrain x _ => some x
  | .unconstrain x _ => some x
  | .fix x => some x
  | .unfix x => some x
  | _ => none

theorem Deed.map_place {P Q Q' V T W : Type} {f : P → Q} {k : P → Q'} {h : Q → Q'} (d : Deed P V T W)
    (he : ∀ x, d.place = some x → h (f x) = k x) : (d.map f).map h = d.map k := by
  cases d <;> simp only [Deed.map] <;> rw [he _ rfl]

theorem Deed.inside {h : Heap T} {r : Id} {S : Sheet V T} {n : Notes} {d : Deed Target V T W} (hd : d.Fits h r S n) {x : Target}
    (hx : d.place = some x) : Anc h.toGraph r x.obj := by
  cases d with
  | put y vs => cases hx; exact hd.1.2.1
  | assign y v => cases hx; exact hd.2.1
  | constrain y t => cases hx; exact hd.2.1
  | unconstrain y ts => cases hx; exact hd.2.1
  | fix y => cases hx; exact hd.2.1
  | unfix y => cases hx; exact hd.2.1
  | values => cases hx
  | read => cases hx
  | set p => cases hx
  | optimize p => cases hx

theorem idxOf_across {f : Id → Id} : ∀ {l : List Id} {y : Id}, (∀ z ∈ l, f z = f y → z = y) →
    (l.map f).idxOf (f y) = l.idxOf y
  | [], _, _ => rfl
  | z :: l, y, h => by
    rw [List.map_cons, List.idxOf_cons, List.idxOf_cons, idxOf_across (fun w hw => h w (List.mem_cons_of_mem _ hw))]
    by_cases e : z = y
    · subst e; simp
    · have : f z ≠ f y := fun he => e (h z List.mem_cons_self he)
      have e1 : (f z == f y) = false := beq_eq_false_iff_ne.mpr this
      have e2 : (z == y) = false := beq_eq_false_iff_ne.mpr e
      rw [e1, e2]

/-- Alike models that get the same elements are alike. -/
theorem PlanAlike.store {s s' : State V T} {P P' : Plan V T} {f : Id → Id} {r r' : Id} (a : PlanAlike s P P' f r r')
    (h : Path spoil s) (h' : Path spoil' s') (rp : Represents s P) (rp' : Represents s' P') (hr : r < P.next) (S : Sheet V T) :
    PlanAlike s (P.store r S) (P'.store r' S) f r r' where
  top := a.top
  apart := a.apart
  lt := a.lt
  kids := a.kids
  row := fun y hy => by
    have hp := a.params h h' rp rp' hr .refl
    rw [a.top] at hp
    show (if f y ∈ P'.params r' then S[(P'.params r').idxOf (f y)]? else P'.row (f y)) =
      if y ∈ P.params r then S[(P.params r).idxOf y]? else P.row y
    have hin : ∀ z ∈ P.params r, f z = f y → z = y := fun z hz e =>
      a.apart z y (params_inside h rp hr hz) hy e
    rw [hp, idxOf_across hin, a.row y hy]
    by_cases hm : y ∈ P.params r
    · rw [if_pos hm, if_pos (List.mem_map.mpr ⟨y, hm, rfl⟩)]
    · rw [if_neg hm, if_neg]
      intro hm'
      obtain ⟨z, hz, e⟩ := List.mem_map.mp hm'
      exact hm (hin z hz e ▸ hz)

/-- What is inside `r` depends on the plan. -/
theorem anc_kept {s s1 : State V T} {P P1 : Plan V T} (h : Path spoil s) (h1 : Path spoil' s1) (rp : Represents s P)
    (rp1 : Represents s1 P1) {r : Id} (hr : r < P.next) (hn : P.next ≤ P1.next)
    (hk : ∀ y, Anc s.heap.toGraph r y → P1.kids y = P.kids y) {y : Id} :
    Anc s1.heap.toGraph r y ↔ Anc s.heap.toGraph r y := by
  have sk := h.reach.heap.wf.skel
  have sk1 := h1.reach.heap.wf.skel
  have lt : ∀ z, Anc s.heap.toGraph r z → z < P.next := fun z hz => by
    rw [← rp.next]; exact lt_of_anc sk (by rw [rp.next]; exact hr) hz
  have kk : ∀ z, Anc s.heap.toGraph r z → s1.heap.kids z = s.heap.kids z := fun z hz => by
    rw [rp1.kids z (Nat.lt_of_lt_of_le (lt z hz) hn), hk z hz, rp.kids z (lt z hz)]
  constructor
  · intro hy
    induction hy with
    | refl => exact .refl
    | @step p c hp hc ih =>
      refine .step ih ((sk.mem_iff _ _).mp ?_)
      rw [← kk p ih]
      exact (sk1.mem_iff _ _).mpr hc
  · intro hy
    induction hy with
    | refl => exact .refl
    | @step p c hp hc ih =>
      refine .step ih ((sk1.mem_iff _ _).mp ?_)
      rw [kk p hp]
      exact (sk.mem_iff _ _).mpr hc

end Paramz.Memory

import Verif.Opt.Props
import Verif.Opt.Coherence

/-!
# Constrained values stay in their domain (C76)

Source: `paramz/core/constrainable.py:52-165`, `paramz/core/parameter_core.py:95-124, 228-250`; the model of the calls
is that of `Verif.Opt.Model`.
-/

set_option linter.unusedSectionVars false

namespace Paramz.Opt

open IndexOps (Arr lookup)
open Hier (Heap Con Id upd)
open Hier.Heap (Target Reach Covers)
open Hier.Graph (Anc At)

variable {V T : Type} [DecidableEq T]

/-! ### Specification -/

/-- All values are numbers (`Num`), and every element that carries a transformation `t` is in its domain `D t`. -/
structure Obeys (Num : V → Prop) (D : T → V → Prop) (s : State V T) : Prop where
  num : ∀ v ∈ s.vals, Num v
  dom : ∀ (i : Nat) (t : T) (v : V), i ∈ s.cons (.tr t) → s.vals[i]? = some v → D t v

/-- What the functions of the transformations promise: `f` and `initialize` send numbers into the domain. -/
structure Lands (o : Ops V T) (Num : V → Prop) (D : T → V → Prop) : Prop where
  f : ∀ t v, Num v → Num (o.f t v) ∧ D t (o.f t v)
  init : ∀ t v, Num v → Num (o.init t v) ∧ D t (o.init t v)

/-- The calls that are allowed: what is given to the optimiser's array, or drawn, are numbers, what is written directly
are numbers in the domains of the elements written, and transformations are put on objects, or on parts that share
their memory - or on elements that are in the domain already. -/
def Tame (Num : V → Prop) (D : T → V → Prop) (s : State V T) : Ev V T → Prop
  | .set p => ∀ v ∈ p, Num v
  | .write x vs => vs.length = (s.raveledFor x).length ∧
      ∀ e ∈ (s.raveledFor x).zip vs, Num e.2 ∧ ∀ t, e.1 ∈ s.cons (.tr t) → D t e.2
  | .constrain x sh (.tr t) => sh = true ∨ ∀ i ∈ s.raveledFor x, ∀ v, s.vals[i]? = some v → D t v
  | .randomize d => ∀ v ∈ d, Num v
  | _ => True

/-- Histories of allowed calls. -/
inductive TameHistory (o : Ops V T) (g : List V → List V) (Num : V → Prop) (D : T → V → Prop) (s : State V T) :
    State V T → Prop
  | nil : TameHistory o g Num D s s
  | snoc {s' : State V T} : TameHistory o g Num D s s' → (e : Ev V T) → Admissible s' e → Tame Num D s' e →
      TameHistory o g Num D s (exec o g s' e)

/-! ### Lemmas -/

theorem raveledFor_covers {s : State V T} {x : Target} {o' : Nat} (c : Hier.Heap.Ctx s.heap x s.root o') (i : Nat) :
    i ∈ s.raveledFor x ↔ Covers s.heap x o' i := by
  unfold State.raveledFor Covers
  rw [c.offsetFor]

/-- Writing with `np.put`: every value is an old one or one of those written at its index. -/
theorem getElem?_put_cases : ∀ (ind : Arr) (vs a : List V) (i : Nat) (v : V), (put a ind vs)[i]? = some v →
    (i, v) ∈ ind.zip vs ∨ a[i]? = some v
  | [], _, _, _, _, h => Or.inr h
  | _ :: _, [], _, _, _, h => Or.inr h
  | j :: ind, w :: vs, a, i, v, h => by
    rw [put_cons] at h
    rcases getElem?_put_cases ind vs (a.set j w) i v h with h1 | h1
    · exact Or.inl (List.mem_cons_of_mem _ h1)
    · rw [List.getElem?_set] at h1
      split at h1
      · rename_i hij
        split at h1
        · cases h1; subst hij; exact Or.inl List.mem_cons_self
        · cases h1
      · exact Or.inr h1

/-- Values after the setter, for vectors of any length. -/
theorem setVals_obeys {o : Ops V T} {Num : V → Prop} {D : T → V → Prop} (hl : Lands o Num D) {s : State V T} (r : Ready s)
    (h : Obeys Num D s) {p : List V} (hp : ∀ v ∈ p, Num v) :
    (∀ v ∈ s.setVals o p, Num v) ∧
    ∀ (i : Nat) (t : T) (v : V), i ∈ s.cons (.tr t) → (s.setVals o p)[i]? = some v → D t v := by
  set m := s.setterMask.getD (List.replicate s.vals.length true) with hm
  have hassnum : ∀ (i : Nat) (v : V), (assign s.vals m p)[i]? = some v → Num v := by
    have key : ∀ (k : Nat) (a : List V) (b : List Bool) (v : V), (∀ v ∈ a, Num v) → v ∈ assignFrom p k a b → Num v := by
      intro k a
      induction a generalizing k with
      | nil => intro b v _ hv; cases b <;> simp [assignFrom] at hv
      | cons w a ih =>
        intro b v ha hv
        cases b with
        | nil => exact ha v hv
        | cons b bs =>
          rw [assignFrom] at hv
          have ha' : ∀ v ∈ a, Num v := fun v hv => ha v (List.mem_cons_of_mem _ hv)
          split at hv
          · rcases List.mem_cons.mp hv with h1 | h1
            · cases hq : p[k % p.length]? with
              | none => rw [hq] at h1; rw [h1]; exact ha w List.mem_cons_self
              | some q => rw [hq] at h1; rw [h1]; exact hp _ (List.mem_of_getElem? hq)
            · exact ih (k + 1) bs v ha' h1
          · rcases List.mem_cons.mp hv with h1 | h1
            · rw [h1]; exact ha w List.mem_cons_self
            · exact ih k bs v ha' h1
    exact fun i v hv => key 0 s.vals m v h.num (List.mem_of_getElem? hv)
  obtain ⟨h1, h2⟩ := fAll_spec o s.setterMask (its := s.items) (a := assign s.vals m p)
    (by rw [assign_length, r.vals]; exact r.items_bound) r.items_disjoint
  have hsv : s.setVals o p = fAll o s.setterMask s.items (assign s.vals m p) := rfl
  have hfix := (setVals_spec o r p).2.1
  rw [hsv] at hfix ⊢
  have hwr : ∀ (t : T) (i : Nat), i ∈ s.cons (.tr t) → i ∉ s.cons .fixed → i ∈ written s.setterMask (s.cons (.tr t)) := by
    intro t i hi hf
    have hlt := r.bound hi
    rw [r.setterMask_eq]
    unfold written
    cases hh : s.hasFixes with
    | true =>
      rw [if_pos rfl]
      simp only [List.mem_filter]
      refine ⟨hi, ?_⟩
      rw [List.getD_eq_getElem?_getD, Heap.maskOf, List.getElem?_map, List.getElem?_range hlt]
      simpa using hf
    | false => rw [if_neg (by simp)]; exact hi
  refine ⟨fun v hv => ?_, fun i t v hi hv => ?_⟩
  · obtain ⟨i, hi⟩ := List.mem_iff_getElem?.mp hv
    by_cases hw : ∃ t ind, (Con.tr t, ind) ∈ s.items ∧ i ∈ written s.setterMask ind
    · obtain ⟨t, ind, he, hw⟩ := hw
      rw [(h2 i).1 t ind he hw] at hi
      obtain ⟨w, hw1, hw2⟩ := Option.map_eq_some_iff.mp hi
      rw [← hw2]; exact (hl.f t w (hassnum i w hw1)).1
    · push Not at hw
      rw [(h2 i).2 hw] at hi
      exact hassnum i v hi
  · by_cases hf : i ∈ s.cons .fixed
    · rw [hfix i hf] at hv
      exact h.dom i t v hi hv
    · rw [(h2 i).1 t _ (r.mem_items_of hi) (hwr t i hi hf)] at hv
      obtain ⟨w, hw1, hw2⟩ := Option.map_eq_some_iff.mp hv
      rw [← hw2]; exact (hl.f t w (hassnum i w hw1)).2

/-- One call. -/
theorem exec_obeys {o : Ops V T} (g : List V → List V) {Num : V → Prop} {D : T → V → Prop} (hl : Lands o Num D)
    {s : State V T} (r : Ready s) (h : Obeys Num D s) {e : Ev V T} (ha : Admissible s e) (ht : Tame Num D s e) :
    Obeys Num D (exec o g s e) := by
  have same : ∀ s' : State V T, s'.vals = s.vals → (∀ t i, i ∈ s'.cons (.tr t) → i ∈ s.cons (.tr t)) →
      Obeys Num D s' := by
    intro s' hv hc
    exact ⟨by rw [hv]; exact h.num, fun i t v hi hw => h.dom i t v (hc t i hi) (by rw [← hv]; exact hw)⟩
  cases e with
  | read junk =>
    have hst := readOpt_state (o := o) r junk
    exact same _ (by simp only [exec]; rw [hst]) (by simp only [exec]; rw [hst]; exact fun _ _ h => h)
  | set p =>
    obtain ⟨h1, h2⟩ := setVals_obeys hl r h ht
    have hv : (exec o g s (.set p)).vals = s.setVals o p := by simp [exec, State.setOpt]
    have hc : ∀ c, (exec o g s (.set p)).cons c = s.cons c := fun c => setOpt_cons o g s p c
    exact ⟨by rw [hv]; exact h1, fun i t v hi hw => h2 i t v (by rw [← hc]; exact hi) (by rw [← hv]; exact hw)⟩
  | write x vs =>
    have hv : (exec o g s (.write x vs)).vals = put s.vals (s.raveledFor x) vs := by simp [exec, State.write]
    have hc : ∀ c, (exec o g s (.write x vs)).cons c = s.cons c := fun c => by
      unfold State.cons; simp [exec, State.write]
    constructor
    · rw [hv]
      intro v hm
      obtain ⟨i, hi⟩ := List.mem_iff_getElem?.mp hm
      rcases getElem?_put_cases _ _ _ _ _ hi with h1 | h1
      · exact (ht.2 _ h1).1
      · exact h.num v (List.mem_of_getElem? h1)
    · rw [hv]
      intro i t v hi hw
      rw [hc] at hi
      rcases getElem?_put_cases _ _ _ _ _ hw with h1 | h1
      · exact (ht.2 _ h1).2 t hi
      · exact h.dom i t v hi h1
  | constrain x sh c =>
    obtain ⟨o', cx⟩ := ha.ctx r
    cases c with
    | fixed =>
      have e := (Hier.Heap.fix_spec r.wf cx).2
      refine same _ (by simp [exec, State.constrain]) (fun t i hi => ?_)
      rw [cons_of_eff r e (s' := exec o g s (.constrain x sh .fixed)) (by simp [exec, State.constrain, Heap.constrain])
        (by simp [exec, State.constrain])] at hi
      rw [r.cons_eq]
      simpa using hi
    | tr t =>
      have e := (Hier.Heap.constrain_spec r.wf cx t).2
      have hcon : ∀ u i, i ∈ (exec o g s (.constrain x sh (.tr t))).cons (.tr u) →
          (i ∈ s.cons (.tr u) ∧ i ∉ s.raveledFor x) ∨ (u = t ∧ i ∈ s.raveledFor x) := by
        intro u i hi
        rw [cons_of_eff r e (s' := exec o g s (.constrain x sh (.tr t))) (by simp [exec, State.constrain])
          (by simp [exec, State.constrain])] at hi
        rw [r.cons_eq, raveledFor_covers cx]
        rcases hi with h1 | ⟨h1, h2⟩
        · exact Or.inl h1
        · exact Or.inr ⟨by injection h1, h2⟩
      cases hsh : sh with
      | true =>
        subst hsh
        have hv : (exec o g s (.constrain x true (.tr t))).vals =
            put s.vals (s.raveledFor x) ((pick s.vals (s.raveledFor x)).map (o.init t)) := by
          simp [exec, State.constrain]
        have hb : ∀ j ∈ s.raveledFor x, j < s.vals.length := by
          intro j hj
          rw [r.vals]
          exact cx.covers_lt r.wf ((raveledFor_covers cx j).mp hj)
        have hput := fun i => getElem?_put_map (src := s.vals) (a := s.vals) (g := o.init t) hb i
        constructor
        · rw [hv]
          intro v hm
          obtain ⟨i, hi⟩ := List.mem_iff_getElem?.mp hm
          by_cases hx : i ∈ s.raveledFor x
          · rw [(hput i).1 hx (hb i hx)] at hi
            obtain ⟨w, hw1, hw2⟩ := Option.map_eq_some_iff.mp hi
            rw [← hw2]; exact (hl.init t w (h.num w (List.mem_of_getElem? hw1))).1
          · rw [(hput i).2 hx] at hi
            exact h.num v (List.mem_of_getElem? hi)
        · rw [hv]
          intro i u v hi hw
          rcases hcon u i hi with ⟨h1, h2⟩ | ⟨rfl, h2⟩
          · rw [(hput i).2 h2] at hw
            exact h.dom i u v h1 hw
          · rw [(hput i).1 h2 (hb i h2)] at hw
            obtain ⟨w, hw1, hw2⟩ := Option.map_eq_some_iff.mp hw
            rw [← hw2]; exact (hl.init u w (h.num w (List.mem_of_getElem? hw1))).2
      | false =>
        subst hsh
        have hv : (exec o g s (.constrain x false (.tr t))).vals = s.vals := by simp [exec, State.constrain]
        refine ⟨by rw [hv]; exact h.num, ?_⟩
        rw [hv]
        intro i u v hi hw
        rcases hcon u i hi with ⟨h1, -⟩ | ⟨rfl, h2⟩
        · exact h.dom i u v h1 hw
        · rcases ht with h3 | h3
          · cases h3
          · exact h3 i h2 v hw
  | unconstrain x ts =>
    obtain ⟨o', cx⟩ := ha.ctx r
    have e := (Hier.Heap.unconstrain_spec r.wf cx ts).2
    refine same _ rfl (fun t i hi => ?_)
    rw [cons_of_eff r e (s' := exec o g s (.unconstrain x ts)) rfl rfl] at hi
    rw [r.cons_eq]; exact hi.1
  | fix x =>
    obtain ⟨o', cx⟩ := ha.ctx r
    have e := (Hier.Heap.fix_spec r.wf cx).2
    refine same _ (by simp [exec, State.fix]) (fun t i hi => ?_)
    rw [cons_of_eff r e (s' := exec o g s (.fix x)) (by simp [exec, State.fix]) (by simp [exec, State.fix])] at hi
    rw [r.cons_eq]
    simpa using hi
  | unfix x =>
    obtain ⟨o', cx⟩ := ha.ctx r
    have e := (Hier.Heap.unfix_spec r.wf cx).2
    refine same _ rfl (fun t i hi => ?_)
    rw [cons_of_eff r e (s' := exec o g s (.unfix x)) rfl rfl] at hi
    rw [r.cons_eq]; exact hi.1
  | updateModel b =>
    exact same _ (by simp [exec, State.updateModel]) (by unfold State.cons; simp [exec, State.updateModel])
  | optGrad => exact same _ rfl (fun _ _ h => h)
  | randomize d =>
    obtain ⟨h1, h2⟩ := setVals_obeys hl r h ht
    have hv : (exec o g s (.randomize d)).vals = s.setVals o d := randomize_vals o g r d
    have hc : ∀ c, (exec o g s (.randomize d)).cons c = s.cons c := fun c => by
      unfold State.cons; simp [exec, State.randomize, State.updateModel, State.setOpt]
    exact ⟨by rw [hv]; exact h1, fun i t v hi hw => h2 i t v (by rw [← hc]; exact hi) (by rw [← hv]; exact hw)⟩

/-! ### C76 -/

/-- Along every history of allowed calls all constrained values are in the domain of their transformation. Missing for
the full claim: parts that are copies (`constrain_copy_fails`) and values written directly (`write_outside_fails`). -/
theorem stays_in_domain_partial {o : Ops V T} (g : List V → List V) {Num : V → Prop} {D : T → V → Prop}
    (hl : Lands o Num D) {s s' : State V T} (r : Ready s) (h : Obeys Num D s) (hh : TameHistory o g Num D s s') :
    Obeys Num D s' := by
  have key : Ready s' ∧ Obeys Num D s' := by
    induction hh with
    | nil => exact ⟨r, h⟩
    | snoc _ e ha ht ih => exact ⟨exec_ready ih.1 ha, exec_obeys g hl ih.1 ih.2 ha ht⟩
  exact key.2

/-- The transformations of the library do what is asked: with finite numbers, `f` and `initialize` give values in the
closed domain. -/
theorem transformations_land (sem : T → Transform.Tr) (hsem : ∀ t, (sem t).Valid) :
    Lands (floatOps sem) (· ≠ none) (fun t v => ∃ y, v = some y ∧ y ∈ Transform.ClosedDom (sem t)) := by
  have hsub : ∀ (t : Transform.Tr) (y : ℝ), y ∈ Transform.Dom t → y ∈ Transform.ClosedDom t := by
    intro t y hy
    cases t with
    | logexp => exact le_of_lt (show (0 : ℝ) < y from hy)
    | exponent => exact le_of_lt (show (0 : ℝ) < y from hy)
    | negLogexp => exact le_of_lt (show y < (0 : ℝ) from hy)
    | negExponent => exact le_of_lt (show y < (0 : ℝ) from hy)
    | square => exact hy
    | logistic l u => exact ⟨le_of_lt hy.1, le_of_lt hy.2⟩
  constructor
  · intro t v hv
    cases v with
    | none => exact absurd rfl hv
    | some x => exact ⟨by simp [floatOps], _, rfl, hsub _ _ (Transform.transformed_in_domain _ (hsem t) x)⟩
  · intro t v hv
    cases v with
    | none => exact absurd rfl hv
    | some x => exact ⟨by simp [floatOps], _, rfl, (Transform.initialize_sound _ (hsem t) x).1⟩

/-- In particular: a model without constraints and with finite values, and any allowed calls after that. -/
theorem constrained_values_valid_partial (sem : T → Transform.Tr) (hsem : ∀ t, (sem t).Valid)
    (g : List (Option ℝ) → List (Option ℝ)) {s s' : State (Option ℝ) T} (r : Ready s) (hfin : ∀ v ∈ s.vals, v ≠ none)
    (hno : ∀ t, s.cons (.tr t) = [])
    (hh : TameHistory (floatOps sem) g (· ≠ none) (fun t v => ∃ y, v = some y ∧ y ∈ Transform.ClosedDom (sem t)) s s')
    {i : Nat} {t : T} (hi : i ∈ s'.cons (.tr t)) :
    ∃ y, s'.vals[i]? = some (some y) ∧ y ∈ Transform.ClosedDom (sem t) := by
  have hob := stays_in_domain_partial g (transformations_land sem hsem) r
    ⟨hfin, fun i t v hi _ => by rw [hno] at hi; cases hi⟩ hh
  have r' : Ready s' := by
    clear hi hob
    induction hh with
    | nil => exact r
    | snoc _ e ha _ ih => exact exec_ready ih ha
  have hlt : i < s'.vals.length := by rw [r'.vals]; exact r'.bound hi
  obtain ⟨y, h1, h2⟩ := hob.dom i t _ hi (List.getElem?_eq_getElem hlt)
  exact ⟨y, by rw [List.getElem?_eq_getElem hlt, h1], h2⟩

/-! ### Examples and violations -/

/-- Transformations over the integers: the domain of `t` are the values of at least `t`. -/
def floorOps : Ops Int Nat where
  f t x := t + x.natAbs
  finv t v := v - t
  gradfactor _ _ d := d
  init t v := max t v

theorem floor_lands : Lands floorOps (fun _ => True) (fun t v => (t : Int) ≤ v) :=
  ⟨fun t v _ => ⟨trivial, by show (t : Int) ≤ t + v.natAbs; omega⟩,
   fun t v _ => ⟨trivial, by show (t : Int) ≤ max (t : Int) v; omega⟩⟩

/-- The model of the examples before anything was constrained. -/
def plain : State Int Nat where
  heap := Hier.Heap.run Hier.Heap.empty
    [.newNode, .newParam 2, .newNode, .newParam 3, .newParam 1, .newParam 2,
     .link 2 3 none, .link 2 4 none, .finishInit 2 true,
     .link 0 1 none, .link 0 2 none, .link 0 5 none, .finishInit 0 true]
  root := 0
  vals := [10, 11, 12, -13, 14, 15, 16, 17]
  grad := [0, 0, 0, 0, 0, 0, 0, 0]
  copy := none
  fresh := false
  on := true

theorem plain_ready : Ready plain where
  reach := Hier.Heap.Reach.run .empty _ (by decide +kernel)
  lt := by decide +kernel
  root := by decide +kernel
  node := by decide +kernel
  inInit := by decide +kernel
  inited := by decide +kernel
  vals := by decide +kernel

theorem plain_within {x : Target} (h1 : x.obj ∈ [0, 1, 2, 3, 4, 5])
    (h2 : ∀ a, x.part = some a → plain.heap.leaf x.obj = true ∧ ∀ i ∈ a, i < plain.heap.size x.obj) : Within plain x := by
  refine ⟨⟨?_, h2⟩, ?_⟩
  · have : ∀ y ∈ [0, 1, 2, 3, 4, 5], y < plain.heap.next := by decide +kernel
    exact this _ h1
  · have hs : plain.heap.toGraph.subtree plain.root = [0, 1, 2, 3, 4, 5] := by decide +kernel
    exact (plain_ready.reach.wf.skel.mem_subtree).mp (by rw [hs]; exact h1)

/-- Constraining the inner object: the value that is out of the domain is moved into it, and one that the optimiser
sets comes out in the domain too. -/
example : ∃ s', TameHistory floorOps id (fun _ => True) (fun t v => (t : Int) ≤ v) plain s' ∧
    s'.cons (.tr 13) = [2, 3, 4, 5] ∧ s'.vals = [1, 2, 16, 17, 18, 19, 7, 8] := by
  refine ⟨_, .snoc (.snoc .nil (.constrain ⟨2, none⟩ true (.tr 13)) ?_ (Or.inl rfl)) (.set [1, 2, 3, 4, 5, 6, 7, 8])
    trivial (fun _ _ => trivial), by decide +kernel, by decide +kernel⟩
  exact plain_within (by decide) (fun a h => by cases h)

example : (exec floorOps id plain (.constrain ⟨2, none⟩ true (.tr 13))).vals = [10, 11, 13, 13, 14, 15, 16, 17] := by
  decide +kernel

/-- `p[[1, 2]].constrain(t)`: the part is a copy, so only the constraint reaches the model and not the values. -/
theorem constrain_copy_fails : Obeys (fun _ => True) (fun (t : Nat) v => (t : Int) ≤ v) plain ∧
    Admissible plain (.constrain ⟨3, some [1, 2]⟩ false (.tr 13) : Ev Int Nat) ∧
    3 ∈ (exec floorOps id plain (.constrain ⟨3, some [1, 2]⟩ false (.tr 13))).cons (.tr 13) ∧
    (exec floorOps id plain (.constrain ⟨3, some [1, 2]⟩ false (.tr 13))).vals[3]? = some (-13) := by
  refine ⟨⟨fun _ _ => trivial, fun i t v hi _ => ?_⟩, ?_, by decide +kernel, by decide +kernel⟩
  · have : plain.heap.dicts (plain.heap.iop plain.root).1 = [] := by decide +kernel
    rw [plain_ready.cons_eq, this] at hi
    cases hi
  · exact plain_within (by decide) (fun a h => by cases h; decide +kernel)

/-- Nothing looks at the constraints when values are written directly. -/
theorem write_outside_fails :
    4 ∈ (exec floorOps id (exec floorOps id plain (.constrain ⟨2, none⟩ true (.tr 13))) (.write ⟨3, some [2]⟩ [-5])).cons
      (.tr 13) ∧
    (exec floorOps id (exec floorOps id plain (.constrain ⟨2, none⟩ true (.tr 13))) (.write ⟨3, some [2]⟩ [-5])).vals[4]? =
      some (-5) := by decide +kernel

end Paramz.Opt

import Verif.Select.Model
import Verif.Select.Spec
import Verif.Names.Props
import Verif.Concat.Props
import Verif.Hier.TravProps

/-!
# C61: selecting and assigning parameters by name
-/

set_option linter.unusedSectionVars false

namespace Paramz.Select

open Paramz.Hier (Id Graph Trav)
open Paramz.Hier.Graph (Skel Anc)
open Paramz.Names (Name adjust)
open Paramz.Concat (Cat values)

variable {V : Type}

/-! ### Dotted names -/

theorem adjust_no_dot {s t : Name} (h : adjust s = some t) : '.' ∉ t := by
  obtain ⟨-, e⟩ := Names.adjust_some.mp h
  rw [e]
  exact Names.substitute_clean s '.' (by decide)

theorem afterDot_append {a s : Name} (h : '.' ∉ a) : afterDot (a ++ '.' :: s) = s := by
  unfold afterDot
  induction a with
  | nil => simp
  | cons c a ih =>
    rw [List.mem_cons, not_or] at h
    rw [List.cons_append, List.dropWhile_cons_of_pos (by simpa using fun e => h.1 e.symm)]
    exact ih h.2

/-- Every name from `r` down is accepted by `adjust_name_for_printing`. -/
def Printable (g : Graph) (name : Id → Name) (r : Id) : Prop := ∀ y, Anc g r y → (adjust (name y)).isSome = true

theorem Path.anc {g : Graph} {name : Id → Name} {r x : Id} {p : Name} (h : Path g name r x p) : Anc g r x := by
  induction h with
  | child h _ => exact .of_parent h
  | step _ h _ ih => exact ih.trans (.of_parent h)

theorem Path.ne {g : Graph} (s : Skel g) {name : Id → Name} {r x : Id} {p : Name} (h : Path g name r x p) :
    x ≠ r := by
  rintro rfl
  cases h with
  | child h _ => exact s.not_anc_parent h .refl
  | step h1 h _ => exact s.not_anc_parent h h1.anc

/-- There is only one dotted path. -/
theorem Path.unique {g : Graph} (s : Skel g) {name : Id → Name} {r x : Id} {p q : Name} (h : Path g name r x p)
    (h' : Path g name r x q) : p = q := by
  induction h generalizing q with
  | child h ha =>
    cases h' with
    | child _ ha' => rw [ha] at ha'; exact Option.some.inj ha'
    | step h1 h2 _ =>
      rw [h] at h2
      cases h2
      exact absurd rfl (h1.ne s)
  | step h1 h2 ha ih =>
    cases h' with
    | child h3 ha' =>
      rw [h2] at h3
      cases h3
      exact absurd rfl (h1.ne s)
    | step h3 h4 ha' =>
      rw [h2] at h4
      cases h4
      rw [ha] at ha'
      cases ha'
      rw [ih h3]

theorem hierNameF_spec {st : State V} (s : Skel st.g) {d : Id → Nat} {r : Id}
    (hd : ∀ c p, st.g.parent c = some p → d p < d c) (hr : st.g.parent r = none) (hp : Printable st.g st.name r) :
    ∀ n x, Anc st.g r x → d x < n →
    (x = r ∧ st.hierNameF n x = adjust (st.name r)) ∨
    (x ≠ r ∧ ∃ a p, adjust (st.name r) = some a ∧ Path st.g st.name r x p ∧
      st.hierNameF n x = some (a ++ '.' :: p))
  | 0, _, _, h => absurd h (by omega)
  | n + 1, x, hx, h => by
    cases hpar : st.g.parent x with
    | none =>
      left
      have e := (Hier.Graph.anc_root hpar).mp hx
      subst e
      exact ⟨rfl, by simp [State.hierNameF, hpar]⟩
    | some q =>
      right
      have hne : x ≠ r := by rintro rfl; rw [hr] at hpar; cases hpar
      have hq : Anc st.g r q := by
        rcases (Hier.Graph.anc_iff_of_parent hpar).mp hx with e | h
        · exact absurd e.symm hne
        · exact h
      obtain ⟨b, hb⟩ := Option.isSome_iff_exists.mp (hp x hx)
      obtain ⟨a, ha⟩ := Option.isSome_iff_exists.mp (hp r .refl)
      refine ⟨hne, ?_⟩
      rcases hierNameF_spec s hd hr hp n q hq (by have := hd _ _ hpar; omega) with ⟨e, h1⟩ | ⟨_, a', p, h1, h2, h3⟩
      · subst e
        exact ⟨a, b, ha, .child hpar hb, by simp [State.hierNameF, hpar, h1, ha, hb]⟩
      · refine ⟨a', p ++ '.' :: b, h1, .step h2 hpar hb, by simp [State.hierNameF, hpar, h3, hb]⟩

/-- `hierarchy_name` is the name of the root, then the dotted path. -/
theorem hierName_spec {st : State V} (s : Skel st.g) {r x : Id} (hr : st.g.parent r = none)
    (hp : Printable st.g st.name r) (hx : Anc st.g r x) :
    (x = r ∧ st.hierName x = adjust (st.name r)) ∨
    (x ≠ r ∧ ∃ a p, adjust (st.name r) = some a ∧ Path st.g st.name r x p ∧
      st.hierName x = some (a ++ '.' :: p)) := by
  obtain ⟨d, hd, hb⟩ := s.rank
  exact hierNameF_spec s hd hr hp _ x hx (by have := hb x; unfold Graph.fuel; omega)

theorem hierName_isSome {st : State V} (s : Skel st.g) {r x : Id} (hr : st.g.parent r = none)
    (hp : Printable st.g st.name r) (hx : Anc st.g r x) : (st.hierName x).isSome = true := by
  rcases hierName_spec s hr hp hx with ⟨-, h⟩ | ⟨-, a, p, -, -, h⟩
  · rw [h]; exact hp r .refl
  · rw [h]; rfl

theorem visitAll_mem {bad : List Id → Id → Bool} : ∀ (L tr : List Id), (∀ tr, ∀ y ∈ L, bad tr y = false) →
    Hier.visitAll bad tr L = (tr ++ L, false)
  | [], tr, _ => by simp [Hier.visitAll]
  | y :: L, tr, h => by
    rw [Hier.visitAll, h tr y List.mem_cons_self, visitAll_mem L _ (fun tr z hz => h tr z (List.mem_cons_of_mem _ hz))]
    simp

/-! ### What is found -/

/-- `y` is selected by `re` from `x`: it lies below `x` and its dotted path from the root `r` matches. -/
def Selected (st : State V) (re : Name → Bool) (r x y : Id) : Prop :=
  Anc st.g x y ∧ y ≠ x ∧ ∃ p, Path st.g st.name r y p ∧ re p = true

theorem hit_iff {st : State V} (s : Skel st.g) {re : Name → Bool} {r x y : Id} (hr : st.g.parent r = none)
    (hp : Printable st.g st.name r) (hx : Anc st.g r x) (hy : Anc st.g x y) :
    st.hit re x y = true ↔ y ≠ x ∧ ∃ p, Path st.g st.name r y p ∧ re p = true := by
  unfold State.hit
  rw [Bool.and_eq_true, decide_eq_true_eq]
  refine and_congr_right fun hne => ?_
  rcases hierName_spec s hr hp (hx.trans hy) with ⟨e, -⟩ | ⟨-, a, p, ha, h1, h2⟩
  · subst e
    exact absurd (s.anc_antisymm hx hy) hne
  · rw [h2]
    simp only [afterDot_append (adjust_no_dot ha)]
    exact ⟨fun h => ⟨p, h1, h⟩, fun ⟨q, h3, h4⟩ => by rw [h1.unique s h3]; exact h4⟩

/-- What `x.grep_param_names(re)` finds, for every object `x` of every hierarchy with printable names and root
`r`: exactly the objects below `x` whose dotted path *from the root* matches; each once, no object before one
above it, otherwise in the order of the hierarchy; nothing is changed. -/
theorem grep_found {st : State V} (s : Skel st.g) (re : Name → Bool) {r x : Id} (hr : st.g.parent r = none)
    (hx : Anc st.g r x) (hp : Printable st.g st.name r) (hm : st.marks = fun _ => false) :
    ∃ l, st.grep re x = (st, .ok l) ∧ l.Nodup ∧ (∀ y, y ∈ l ↔ Selected st re r x y) ∧
      l.Pairwise (fun a b => ¬ (Anc st.g b a ∧ b ≠ a)) ∧ l.Sublist (st.g.subtree x) := by
  have hbad : ∀ (tr : List Id), ∀ y ∈ st.g.subtree x, (fun (_ : List Id) y => st.noName x y) tr y = false := by
    intro _ y hy
    simp only [State.noName, Bool.and_eq_false_iff]
    right
    have := hierName_isSome s hr hp (hx.trans (s.mem_subtree.mp hy))
    cases h : st.hierName y with
    | none => rw [h] at this; cases this
    | some a => rfl
  have h0 := Hier.Graph.traverse_trace s (bad := fun _ y => st.noName x y) x
  rw [visitAll_mem _ _ hbad] at h0
  have h1 : (st.g.traverse (fun _ y => st.noName x y) Hier.Graph.fresh x).raised = false := congrArg Prod.snd h0
  have ht : (st.g.traverse (fun _ y => st.noName x y) Hier.Graph.fresh x).trace = st.g.subtree x :=
    congrArg Prod.fst h0
  have h6 : (st.g.traverse (fun _ y => st.noName x y) Hier.Graph.fresh x).marks = fun _ => false :=
    (Hier.Graph.traverseF_spec s _ st.g.fuel Hier.Graph.fresh x rfl).2 h1
  refine ⟨(st.g.subtree x).filter (st.hit re x), ?_, ?_, ?_, ?_, List.filter_sublist⟩
  · unfold State.grep
    rw [hm]
    have e : (⟨fun _ => false, [], false⟩ : Trav) = Hier.Graph.fresh := rfl
    rw [e]
    simp only [h1, h6, ht]
    refine Prod.ext ?_ rfl
    simp only
    rw [← hm]
  · exact (Hier.Graph.nodup_subtree s x).filter _
  · intro y
    rw [List.mem_filter, s.mem_subtree]
    refine ⟨fun ⟨h, h'⟩ => ⟨h, (hit_iff s hr hp hx h).mp h'⟩, fun h => ⟨h.1, (hit_iff s hr hp hx h.1).mpr h.2⟩⟩
  · exact (Hier.Graph.subtreeF_order s _ x).filter _

/-- `m[regexp]` on the root `m` of a hierarchy with printable names finds exactly the objects whose dotted name
below `m` matches, each once, parents before children, in the order of the hierarchy. Missing for the full
claim: on an object below the root the names that are compared still start below the root
(`grep_below_root_fails`); a name that cannot be printed makes every search fail (`grep_bad_name_fails`). -/
theorem grep_root_partial {st : State V} (s : Skel st.g) (re : Name → Bool) {m : Id} (hr : st.g.parent m = none)
    (hp : Printable st.g st.name m) (hm : st.marks = fun _ => false) :
    ∃ l, st.grep re m = (st, .ok l) ∧ l.Nodup ∧
      (∀ y, y ∈ l ↔ ∃ p, Path st.g st.name m y p ∧ re p = true) ∧
      l.Pairwise (fun a b => ¬ (Anc st.g b a ∧ b ≠ a)) ∧ l.Sublist (st.g.subtree m) := by
  obtain ⟨l, h1, h2, h3, h4, h5⟩ := grep_found s re hr .refl hp hm
  refine ⟨l, h1, h2, fun y => ?_, h4, h5⟩
  rw [h3 y]
  exact ⟨fun h => h.2.2, fun ⟨p, h, h'⟩ => ⟨h.anc, h.ne s, p, h, h'⟩⟩

/-! ### Assignment -/

theorem flattenedF_eq {g : Graph} (s : Skel g) : ∀ n x,
    State.flattenedF g n x = (Graph.subtreeF n g x).filter g.leaf
  | 0, _ => rfl
  | n + 1, x => by
    unfold State.flattenedF Graph.subtreeF
    by_cases h : g.leaf x = true
    · rw [if_pos h, s.leaf x h]; simp [h]
    · rw [if_neg h, List.filter_cons_of_neg h, List.filter_flatMap]
      exact List.flatMap_congr fun c _ => flattenedF_eq s n c

/-- `flattened_parameters` are the `Param`s at or below an object, each once. -/
theorem flattened_spec {st : State V} (s : Skel st.g) (x : Id) : (st.flattened x).Nodup ∧
    ∀ y, y ∈ st.flattened x ↔ Anc st.g x y ∧ st.g.leaf y = true := by
  have e : st.flattened x = (st.g.subtree x).filter st.g.leaf := flattenedF_eq s _ x
  rw [e]
  refine ⟨(Hier.Graph.nodup_subtree s x).filter _, fun y => ?_⟩
  rw [List.mem_filter, s.mem_subtree]

theorem values_cons (v : Id → List V) (p : Id) (ps : List Id) : values v (p :: ps) = v p ++ values v ps := by
  unfold values; rw [List.flatMap_cons]

theorem spread_other : ∀ (ps : List Id) (l : List V) (v : Id → List V) (q : Id), q ∉ ps →
    State.spread ps l v q = v q
  | [], _, _, _, _ => rfl
  | p :: ps, l, v, q, h => by
    rw [List.mem_cons, not_or] at h
    rw [State.spread, spread_other ps _ _ q h.2]
    exact if_neg h.1

theorem spread_values : ∀ (ps : List Id) (l : List V) (v : Id → List V), ps.Nodup →
    l.length = (values v ps).length → values (State.spread ps l v) ps = l ∧
    ∀ p ∈ ps, (State.spread ps l v p).length = (v p).length
  | [], l, v, _, h => by
    have : l = [] := List.length_eq_zero_iff.mp h
    subst this
    exact ⟨rfl, by simp⟩
  | p :: ps, l, v, hn, h => by
    rw [values_cons, List.length_append] at h
    rw [List.nodup_cons] at hn
    have hc : values (Hier.upd v p (l.take (v p).length)) ps = values v ps :=
      Concat.values_congr fun q hq => if_neg (fun e : q = p => hn.1 (e ▸ hq))
    obtain ⟨h1, h2⟩ := spread_values ps (l.drop (v p).length) (Hier.upd v p (l.take (v p).length)) hn.2
      (by rw [hc, List.length_drop]; omega)
    have hp : State.spread ps (l.drop (v p).length) (Hier.upd v p (l.take (v p).length)) p =
        l.take (v p).length := by
      rw [spread_other _ _ _ _ hn.1]; exact if_pos rfl
    unfold State.spread
    refine ⟨by rw [values_cons, h1, hp, List.take_append_drop], fun q hq => ?_⟩
    rcases List.mem_cons.mp hq with rfl | hq
    · rw [hp, List.length_take]; omega
    · rw [h2 q hq]
      exact congrArg List.length (if_neg (fun e : q = p => hn.1 (e ▸ hq)))

theorem assignLoop_length (ind : List Bool) (vals : List V) : ∀ (ps : List Id) (off : Nat) (v : Id → List V) (q : Id),
    (Concat.assignLoop ind vals ps off v q).length = (v q).length
  | [], _, _, _ => rfl
  | p :: ps, off, v, q => by
    rw [Concat.assignLoop, assignLoop_length]
    unfold Hier.upd
    split
    · rename_i e; subst e; exact Concat.flatAssign_length _ _ _
    · rfl

/-- `val` is a value that can be broadcast to `n` elements or not. -/
def Broadcast (val : Nat → Option (List V)) : Prop := ∀ n l, val n = some l → l.length = n

/-- The state after an assignment that raises no exception: the `Param`s `ps` (each once) hold the elements of
the value in turn and keep their sizes, and nothing else has changed. -/
structure Assigned (st st' : State V) (val : Nat → Option (List V)) (ps : List Id) : Prop where
  nodup : ps.Nodup
  rest : st'.g = st.g ∧ st'.name = st.name ∧ st'.inited = st.inited ∧ st'.marks = st.marks
  value : val (values st.vals ps).length = some (values st'.vals ps)
  sizes : ∀ p ∈ ps, (st'.vals p).length = (st.vals p).length
  others : ∀ q, q ∉ ps → st'.vals q = st.vals q

theorem assignTo_many {st st' : State V} {val : Nat → Option (List V)} (hv : Broadcast val) {l : List Id}
    (h : st.assignTo val (.many (Cat.new st.g l)) = (st', none)) :
    Assigned st st' val (Concat.collect l) := by
  unfold State.assignTo at h
  simp only at h
  split at h
  · cases h
  · have e : (Cat.new st.g l).params = Concat.collect l := rfl
    split at h
    · cases h
    · rename_i w hw
      cases h
      have hl := hv _ _ hw
      refine ⟨Concat.collect_nodup l, ⟨rfl, rfl, rfl, rfl⟩, ?_, fun p _ => assignLoop_length _ _ _ _ _ _, fun q hq =>
        Concat.assignLoop_other _ _ _ _ _ _ hq⟩
      have := Concat.setitem_all st.g l st.vals w hl
      rw [← e, hw, this]

theorem assignTo_one {st st' : State V} (s : Skel st.g) {val : Nat → Option (List V)} (hv : Broadcast val) {x : Id}
    (h : st.assignTo val (.one x) = (st', none)) : Assigned st st' val (st.flattened x) := by
  obtain ⟨hn, hm⟩ := flattened_spec (st := st) s x
  unfold State.assignTo at h
  simp only at h
  split at h
  · rename_i hl
    have e : st.flattened x = [x] := by
      unfold State.flattened Graph.fuel State.flattenedF
      rw [if_pos hl]
    rw [e]
    have ev : values st.vals [x] = st.vals x := by unfold values; simp
    split at h
    · cases h
    · rename_i w hw
      cases h
      have hlen := hv _ _ hw
      refine ⟨List.nodup_singleton x, ⟨rfl, rfl, rfl, rfl⟩, ?_, ?_, ?_⟩
      · rw [ev, hw]; unfold values; simp
      · intro p hp
        rw [List.mem_singleton] at hp
        subst hp
        simpa using hlen
      · intro q hq
        rw [List.mem_singleton] at hq
        exact if_neg hq
  · split at h
    · split at h
      · cases h
      · rename_i w hw
        cases h
        obtain ⟨h1, h2⟩ := spread_values (st.flattened x) w st.vals hn (hv _ _ hw)
        refine ⟨hn, ⟨rfl, rfl, rfl, rfl⟩, ?_, h2, fun q hq => spread_other _ _ _ q hq⟩
        rw [hw]; exact congrArg some h1.symm
    · cases h

theorem assignTo_error {st st' : State V} {val : Nat → Option (List V)} {got : Got} {e : Err}
    (h : st.assignTo val got = (st', some e)) : st' = st := by
  unfold State.assignTo at h
  cases got <;> simp only at h <;> repeat' split at h
  all_goals first | (cases h; rfl) | cases h

/-- `x[regexp] = value`, for every object `x` of every hierarchy with printable names and root `r`. If it raises
nothing has changed. Otherwise the value has been assigned, element by element, to all `Param`s that are
selected or lie below something selected, each once, and to nothing else. -/
theorem setItem_assigns {st st' : State V} (s : Skel st.g) (re : Name → Bool) {r x : Id} {res : Option Err}
    {val : Nat → Option (List V)} (hv : Broadcast val) (hr : st.g.parent r = none)
    (hx : Anc st.g r x) (hp : Printable st.g st.name r) (hm : st.marks = fun _ => false)
    (h : st.setItem re x val = (st', res)) :
    (res ≠ none → st' = st) ∧
    (res = none → ∃ ps, Assigned st st' val ps ∧
      ∀ y, y ∈ ps ↔ st.g.leaf y = true ∧ ∃ z, Selected st re r x z ∧ Anc st.g z y) := by
  obtain ⟨l, h1, h2, h3, -, -⟩ := grep_found s re hr hx hp hm
  unfold State.setItem at h
  split at h
  · unfold State.getItem at h
    rw [h1] at h
    match l, h3, h with
    | [], _, h =>
      cases h
      exact ⟨fun _ => rfl, fun e => by cases e⟩
    | [z], h3, h =>
      simp only at h
      refine ⟨fun hne => ?_, fun e => ?_⟩
      · obtain ⟨e, rfl⟩ := Option.ne_none_iff_exists'.mp hne
        exact assignTo_error h
      · subst e
        refine ⟨_, assignTo_one s hv h, fun y => ?_⟩
        rw [(flattened_spec s z).2 y]
        constructor
        · rintro ⟨ha, hl⟩
          exact ⟨hl, z, (h3 z).mp (by simp), ha⟩
        · rintro ⟨hl, z', hz', ha⟩
          have := (h3 z').mpr hz'
          rw [List.mem_singleton] at this
          subst this
          exact ⟨ha, hl⟩
    | z1 :: z2 :: l', h3, h =>
      simp only at h
      refine ⟨fun hne => ?_, fun e => ?_⟩
      · obtain ⟨e, rfl⟩ := Option.ne_none_iff_exists'.mp hne
        exact assignTo_error h
      · subst e
        refine ⟨_, assignTo_many hv h, fun y => ?_⟩
        rw [Concat.mem_collect, List.mem_flatMap]
        constructor
        · rintro ⟨z, hz, hy⟩
          obtain ⟨ha, hl⟩ := ((flattened_spec s z).2 y).mp hy
          exact ⟨hl, z, (h3 z).mp hz, ha⟩
        · rintro ⟨hl, z, hz, ha⟩
          exact ⟨z, (h3 z).mpr hz, ((flattened_spec s z).2 y).mpr ⟨ha, hl⟩⟩
  · cases h
    exact ⟨fun _ => rfl, fun e => by cases e⟩

theorem mem_values {v : Id → List V} {ps : List Id} {a : V} : a ∈ values v ps ↔ ∃ p ∈ ps, a ∈ v p := by
  unfold values; rw [List.mem_flatMap]

/-- `m[regexp] = c` for a number `c` on the root of a hierarchy with printable names, if it does not raise: every
`Param` that matches, or lies below something that matches, has all its elements equal to `c`; all other
`Param`s keep their values; nothing else changes. Missing for the full claim: as for `grep_root_partial`. -/
theorem setItem_number_partial {st st' : State V} (s : Skel st.g) (re : Name → Bool) {m : Id} {c : V}
    (hr : st.g.parent m = none) (hp : Printable st.g st.name m) (hm : st.marks = fun _ => false)
    (h : st.setItem re m (fun n => some (List.replicate n c)) = (st', none)) :
    (∀ y z p, st.g.leaf y = true → Path st.g st.name m z p → re p = true → Anc st.g z y →
      st'.vals y = List.replicate (st.vals y).length c) ∧
    (∀ y, (∀ z p, Path st.g st.name m z p → re p = true → ¬ (st.g.leaf y = true ∧ Anc st.g z y)) →
      st'.vals y = st.vals y) := by
  obtain ⟨-, h2⟩ := setItem_assigns s re (fun n l e => by cases e; exact List.length_replicate) hr .refl hp hm h
  obtain ⟨ps, ha, hps⟩ := h2 rfl
  constructor
  · intro y z p hl hz hre hy
    have hmem : y ∈ ps := (hps y).mpr ⟨hl, z, ⟨hz.anc, hz.ne s, p, hz, hre⟩, hy⟩
    rw [List.eq_replicate_iff]
    refine ⟨ha.sizes y hmem, fun b hb => ?_⟩
    have hv := Option.some.inj ha.value
    have : b ∈ values st'.vals ps := mem_values.mpr ⟨y, hmem, hb⟩
    rw [← hv] at this
    exact List.eq_of_mem_replicate this
  · intro y hy
    refine ha.others y fun hmem => ?_
    obtain ⟨hl, z, ⟨-, -, p, hz, hre⟩, hzy⟩ := (hps y).mp hmem
    exact hy z p hz hre ⟨hl, hzy⟩

/-- When `m[regexp] = c` raises: the object is not initialised, nothing matches, the only match is a part that
is not initialised, or there are several matches without any `Param` at or below them. -/
theorem setItem_number_raises {st st' : State V} (s : Skel st.g) (re : Name → Bool) {r x : Id} {c : V} {e : Err}
    (hr : st.g.parent r = none) (hx : Anc st.g r x) (hp : Printable st.g st.name r) (hm : st.marks = fun _ => false)
    (h : st.setItem re x (fun n => some (List.replicate n c)) = (st', some e)) :
    (e = .attribute ∧ (st.inited x = false ∨ (∀ y, ¬ Selected st re r x y) ∨
      ∃ z, (∀ y, Selected st re r x y ↔ y = z) ∧ st.g.leaf z = false ∧ st.inited z = false)) ∨
    (e = .value ∧ ∀ y z, Selected st re r x z → Anc st.g z y → st.g.leaf y = false) := by
  obtain ⟨l, h1, h2, h3, -, -⟩ := grep_found s re hr hx hp hm
  unfold State.setItem at h
  split at h
  · unfold State.getItem at h
    rw [h1] at h
    match l, h3, h with
    | [], h3, h =>
      cases h
      exact .inl ⟨rfl, .inr (.inl fun y hy => by simpa using (h3 y).mpr hy)⟩
    | [z], h3, h =>
      simp only [State.assignTo] at h
      split at h
      · cases h
      · rename_i hl
        split at h
        · cases h
        · rename_i hi
          cases h
          exact .inl ⟨rfl, .inr (.inr ⟨z, fun y => by rw [← h3 y, List.mem_singleton], by simpa using hl,
            by simpa using hi⟩)⟩
    | z1 :: z2 :: l', h3, h =>
      simp only [State.assignTo] at h
      split at h
      · rename_i hc
        cases h
        right
        refine ⟨rfl, fun y z hz hy => ?_⟩
        have hc : Concat.collect ((z1 :: z2 :: l').flatMap st.flattened) = [] := hc
        by_contra hl
        have : y ∈ Concat.collect ((z1 :: z2 :: l').flatMap st.flattened) := by
          rw [Concat.mem_collect, List.mem_flatMap]
          exact ⟨z, (h3 z).mpr hz, ((flattened_spec s z).2 y).mpr ⟨hy, by simpa using hl⟩⟩
        rw [hc] at this
        cases this
      · cases h
  · rename_i hi
    cases h
    exact .inl ⟨rfl, .inl (by simpa using hi)⟩

/-! ### Examples and faults -/

/-- The hierarchy of `Notify.demo` with names and values: `m` (0) has `a` (1), `rbf` (2) and `fixed` (5);
`rbf` has `variance` (3), `length scale` (4) and `sub` (6), which has `a` (7). -/
def demo : State Nat where
  g := Notify.demo.heap.toGraph
  name := fun i => (["m", "a", "rbf", "variance", "length scale", "fixed", "sub", "a"].map String.toList).getD i ['x']
  inited := fun _ => true
  marks := fun _ => false
  vals := fun i => [[], [10, 11], [], [12, 13, 14], [15], [16, 17], [], [18, 19]].getD i []

theorem demo_skel : Skel demo.g := (Notify.demo_reach.inv.wf).skel

theorem demo_printable : Printable demo.g demo.name 0 := by
  intro y hy
  have : y ∈ demo.g.subtree 0 := demo_skel.mem_subtree.mpr hy
  exact (by decide +kernel : ∀ y ∈ demo.g.subtree 0, (adjust (demo.name y)).isSome = true) y this

/-- `regexp.match` for an expression of letters only. -/
def starts (t : String) (s : Name) : Bool := t.toList.isPrefixOf s

example : demo.g.parent 0 = none ∧ (demo.grep (starts "rbf") 0).2 = .ok [2, 3, 4, 6, 7] ∧
    (demo.grep (starts "a") 0).2 = .ok [1] ∧ (demo.grep (fun _ => true) 0).2 = .ok [1, 2, 3, 4, 6, 7, 5] ∧
    (demo.grep (starts "rbf.length_scale") 0).2 = .ok [4] ∧ (demo.grep (starts "x") 0).2 = .ok [] := by
  decide +kernel

example : (demo.setItem (starts "rbf") 0 (fun n => some (List.replicate n 7))).2 = none ∧
    ((demo.setItem (starts "rbf") 0 (fun n => some (List.replicate n 7))).1.vals 4,
      (demo.setItem (starts "rbf") 0 (fun n => some (List.replicate n 7))).1.vals 7,
      (demo.setItem (starts "rbf") 0 (fun n => some (List.replicate n 7))).1.vals 1) = ([7], [7, 7], [10, 11]) ∧
    (demo.setItem (starts "x") 0 (fun n => some (List.replicate n 7))).2 = some .attribute := by
  decide +kernel

/-- The part `rbf` has a parameter `variance`, but `m.rbf['variance']` finds nothing, since the name compared is
`rbf.variance`: the claim would have it found. -/
theorem grep_below_root_fails : Path demo.g demo.name 2 3 "variance".toList ∧
    (demo.grep (starts "variance") 2).2 = .ok [] ∧ (demo.grep (starts "rbf.variance") 2).2 = .ok [3] ∧
    (demo.setItem (starts "variance") 2 (fun n => some (List.replicate n 7))).2 = some .attribute :=
  ⟨.child (by decide +kernel) (by decide +kernel), by decide +kernel, by decide +kernel, by decide +kernel⟩

/-- With one name that cannot be printed (which linking below the root accepts) the search raises `NameError`,
and the marks it leaves make the next search, even for the root's own parameters, find nothing. -/
def badName : State Nat := { demo with name := Hier.upd demo.name 7 "2a".toList }

theorem grep_bad_name_fails : (badName.grep (starts "a") 0).2 = .error .name ∧
    ((badName.grep (starts "a") 0).1.grep (starts "a") 0).2 = .ok [] ∧
    (adjust (badName.name 1)) = some "a".toList ∧ badName.g.parent 1 = some 0 := by decide +kernel

end Paramz.Select

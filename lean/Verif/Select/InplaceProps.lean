import Verif.Select.Inplace
import Verif.Select.Props

/-!
# C81: arithmetic in place on selected parameters
-/

set_option linter.unusedSectionVars false

namespace Paramz.Select

open Paramz.Hier (Id Graph)
open Paramz.Hier.Graph (Skel Anc)
open Paramz.Names (Name adjust)
open Paramz.Concat (Cat values)

variable {V T : Type} [DecidableEq T]

/-- The state after `op= v` on the `Param`s `ps` (each once): their elements, in turn, are those before combined
with those of `v`, their sizes are as before, and nothing else has changed. -/
structure Became (st st' : State V) (o : Operand V) (ps : List Id) : Prop where
  nodup : ps.Nodup
  rest : st'.g = st.g ∧ st'.name = st.name ∧ st'.inited = st.inited ∧ st'.marks = st.marks
  value : ∃ w, o.val (values st.vals ps).length = some w ∧ values st'.vals ps = List.zipWith o.op (values st.vals ps) w
  sizes : ∀ p ∈ ps, (st'.vals p).length = (st.vals p).length
  others : ∀ q, q ∉ ps → st'.vals q = st.vals q

/-- The values are given by `op= c` with a number `c`. -/
def number (op : V → V → V) (c : V) : Operand V := ⟨op, fun n => some (List.replicate n c)⟩

theorem exactly_broadcast (l : List V) : Broadcast (exactly l) := by
  intro n w h
  unfold exactly at h
  split at h
  · cases h; rename_i e; exact e.symm
  · cases h

theorem exactly_some {l w : List V} {n : Nat} (h : exactly l n = some w) : w = l ∧ n = l.length := by
  unfold exactly at h
  split at h
  · cases h; exact ⟨rfl, by assumption⟩
  · cases h

theorem apply_some {o : Operand V} {l w : List V} (h : o.apply l = some w) :
    ∃ u, o.val l.length = some u ∧ w = List.zipWith o.op l u := by
  unfold Operand.apply at h
  rw [Option.map_eq_some_iff] at h
  obtain ⟨u, h1, h2⟩ := h
  exact ⟨u, h1, h2.symm⟩

theorem apply_length {o : Operand V} (ho : Broadcast o.val) {l w : List V} (h : o.apply l = some w) :
    w.length = l.length := by
  obtain ⟨u, h1, rfl⟩ := apply_some h
  rw [List.length_zipWith, ho _ _ h1, Nat.min_self]

/-- Assigning to a `Param` the values it has. -/
theorem assignTell_self (st : State V) {x : Id} (hl : st.g.leaf x = true) :
    st.assignTell (exactly (st.vals x)) (.one x) = ⟨st, none, announce st [.write x]⟩ := by
  have h : Hier.upd st.vals x (st.vals x) = st.vals := by
    funext y; unfold Hier.upd; split
    · rename_i e; rw [e]
    · rfl
  simp only [State.assignTell, State.assignTo, State.tells, hl, if_true, exactly, h]

/-- The operator on what was selected by name: with the exception, nothing has changed; otherwise the `Param`s
selected are combined with the operand. -/
theorem iop_one {st : State V} (o : Operand V) (ho : Broadcast o.val) {x : Id} :
    ((st.iop o (.one x)).1.err ≠ none → (st.iop o (.one x)).1.st = st ∧ (st.iop o (.one x)).1.log = []) ∧
    ((st.iop o (.one x)).1.err = none → st.g.leaf x = true ∧ Became st (st.iop o (.one x)).1.st o [x] ∧
      (st.iop o (.one x)).1.log = announce (st.iop o (.one x)).1.st [.write x] ∧
      (st.iop o (.one x)).2 = some x) := by
  simp only [State.iop]
  split
  · rename_i hl
    cases ha : o.apply (st.vals x) with
    | none => exact ⟨fun _ => ⟨rfl, rfl⟩, fun h => by cases h⟩
    | some l =>
      refine ⟨fun h => absurd rfl h, fun _ => ⟨hl, ⟨List.nodup_singleton x, ⟨rfl, rfl, rfl, rfl⟩, ?_, ?_, ?_⟩, rfl, rfl⟩⟩
      · obtain ⟨u, h1, h2⟩ := apply_some ha
        have e : ∀ v : Id → List V, values v [x] = v x := fun v => by unfold values; simp
        rw [e, e]
        refine ⟨u, h1, ?_⟩
        rw [← h2]; exact if_pos rfl
      · intro p hp
        rw [List.mem_singleton] at hp
        subst hp
        show (Hier.upd st.vals p l p).length = _
        rw [show Hier.upd st.vals p l p = l from if_pos rfl]
        exact apply_length ho ha
      · intro q hq
        rw [List.mem_singleton] at hq
        exact if_neg hq
  · exact ⟨fun _ => ⟨rfl, rfl⟩, fun h => by cases h⟩

theorem assignTell_error {st : State V} {val : Nat → Option (List V)} {got : Got}
    (h : (st.assignTell val got).err ≠ none) :
    (st.assignTell val got).st = st ∧ (st.assignTell val got).log = [] := by
  unfold State.assignTell at h ⊢
  split
  · rename_i s' e h1
    exact ⟨assignTo_error h1, rfl⟩
  · rename_i s' h1
    rw [h1] at h
    exact absurd rfl h

theorem assignTell_ok {st : State V} {val : Nat → Option (List V)} {got : Got}
    (h : (st.assignTell val got).err = none) :
    st.assignTo val got = ((st.assignTell val got).st, none) ∧
      (st.assignTell val got).log = announce (st.assignTell val got).st (st.tells got) := by
  unfold State.assignTell at h ⊢
  split
  · rename_i s' e h1
    rw [h1] at h
    cases h
  · rename_i s' h1
    exact ⟨h1, rfl⟩

theorem iop_many {st : State V} (o : Operand V) (l : List Id) :
    ((st.iop o (.many (Cat.new st.g l))).1.err ≠ none → (st.iop o (.many (Cat.new st.g l))).1.st = st ∧
      (st.iop o (.many (Cat.new st.g l))).1.log = []) ∧
    ((st.iop o (.many (Cat.new st.g l))).1.err = none →
      Became st (st.iop o (.many (Cat.new st.g l))).1.st o (Concat.collect l) ∧
      (st.iop o (.many (Cat.new st.g l))).1.log = announce (st.iop o (.many (Cat.new st.g l))).1.st
        ((Concat.parents st.g (Concat.collect l)).map (.up · false))) ∧
    (st.iop o (.many (Cat.new st.g l))).2 = none := by
  simp only [State.iop]
  split
  · exact ⟨fun _ => ⟨rfl, rfl⟩, ⟨fun h => (by cases h), rfl⟩⟩
  · cases ha : o.apply (values st.vals (Cat.new st.g l).params) with
    | none => exact ⟨fun _ => ⟨rfl, rfl⟩, ⟨fun h => (by cases h), rfl⟩⟩
    | some w =>
      refine ⟨fun h => assignTell_error h, fun h => ?_, rfl⟩
      obtain ⟨h1, h2⟩ := assignTell_ok h
      have hA := assignTo_many (exactly_broadcast w) h1
      refine ⟨⟨hA.nodup, hA.rest, ?_, hA.sizes, hA.others⟩, h2⟩
      obtain ⟨u, h3, h4⟩ := apply_some ha
      refine ⟨u, h3, ?_⟩
      rw [(exactly_some hA.value).1, h4]
      rfl

/-- Two lists without repetition, of one element. -/
theorem eq_singleton {l : List Id} {x : Id} (hn : l.Nodup) (h : ∀ y, y ∈ l ↔ y = x) : l = [x] := by
  match l, hn, h with
  | [], _, h => exact absurd ((h x).mpr rfl) (by simp)
  | [a], _, h => rw [(h a).mp (by simp)]
  | a :: b :: l, hn, h =>
    have h1 := (h a).mp (by simp)
    have h2 := (h b).mp (by simp)
    rw [List.nodup_cons] at hn
    exact absurd (by rw [h1, h2]; simp) hn.1

theorem Became.getItem_one {st st' : State V} {o : Operand V} {ps : List Id} (hb : Became st st' o ps)
    (s : Skel st.g) {re : Name → Bool} {r x y : Id} (hr : st.g.parent r = none) (hx : Anc st.g r x)
    (hp : Printable st.g st.name r) (hm : st.marks = fun _ => false) (hy : ∀ z, Selected st re r x z ↔ z = y) :
    st'.getItem re x = (st', .ok (.one y)) := by
  obtain ⟨hg, hname, -, hmarks⟩ := hb.rest
  obtain ⟨l, h1, h2, h3, -, -⟩ := grep_found (st := st') (hg ▸ s) re (hg ▸ hr) (hg ▸ hx)
    (show Printable st'.g st'.name r by rw [hg, hname]; exact hp) (hmarks.trans hm)
  have e : l = [y] := eq_singleton h2 fun z => by
    rw [h3 z, ← hy z]
    unfold Selected
    rw [hg, hname]
  unfold State.getItem
  rw [h1, e]

/-- There is nothing below a `Param`. -/
theorem leaf_anc {g : Graph} (s : Skel g) {x y : Id} (hl : g.leaf x = true) (h : Anc g x y) : x = y := by
  induction h with
  | refl => rfl
  | step _ h ih =>
    subst ih
    rw [s.kids_not_leaf h] at hl
    cases hl

/-- `x[regexp] op= v`, in every case. -/
theorem aug_item {st : State V} (s : Skel st.g) (re : Name → Bool) {r x : Id} {o : Operand V}
    (ho : Broadcast o.val) (hr : st.g.parent r = none) (hx : Anc st.g r x) (hp : Printable st.g st.name r)
    (hm : st.marks = fun _ => false) (hi : st.inited x = true) :
    ((st.aug x (.re re) o).err ≠ none ∧ (st.aug x (.re re) o).st = st ∧ (st.aug x (.re re) o).log = []) ∨
    ((st.aug x (.re re) o).err = none ∧ ∃ ps, Became st (st.aug x (.re re) o).st o ps ∧
      (∀ y, y ∈ ps ↔ st.g.leaf y = true ∧ ∃ z, Selected st re r x z ∧ Anc st.g z y) ∧
      ((∃ y, (∀ z, Selected st re r x z ↔ z = y) ∧ ps = [y] ∧
        (st.aug x (.re re) o).log = announce (st.aug x (.re re) o).st [.write y, .write y]) ∨
      ((∃ y z, Selected st re r x y ∧ Selected st re r x z ∧ y ≠ z) ∧ ∃ l, ps = Concat.collect l ∧
        (st.aug x (.re re) o).log = announce (st.aug x (.re re) o).st
          ((Concat.parents st.g ps).map (.up · false))))) := by
  obtain ⟨l, h1, h2, h3, -, -⟩ := grep_found s re hr hx hp hm
  match l, h1, h2, h3 with
  | [], h1, _, _ =>
    left
    simp only [State.aug, State.getItem, h1]
    exact ⟨by simp [Out.fail], rfl, rfl⟩
  | [y], h1, _, h3 =>
    have h3 : ∀ z, Selected st re r x z ↔ z = y := fun z => by rw [← h3 z, List.mem_singleton]
    simp only [State.aug, State.getItem, h1]
    obtain ⟨ha, hb⟩ := iop_one (st := st) o ho (x := y)
    unfold State.store
    cases he : (st.iop o (.one y)).1.err with
    | some e =>
      left
      obtain ⟨h4, h5⟩ := ha (by rw [he]; simp)
      exact ⟨by simp [he], h4, h5⟩
    | none =>
      right
      obtain ⟨hl, hbec, hlog, hback⟩ := hb he
      simp only [hback, Option.map_some]
      have hset : (st.iop o (.one y)).1.st.setKey x (.re re) (exactly ((st.iop o (.one y)).1.st.vals y)) =
          ⟨(st.iop o (.one y)).1.st, none, announce (st.iop o (.one y)).1.st [.write y]⟩ := by
        unfold State.setKey
        rw [show (st.iop o (.one y)).1.st.inited x = true from by rw [hbec.rest.2.2.1]; exact hi, if_pos rfl]
        simp only [hbec.getItem_one s hr hx hp hm h3]
        exact assignTell_self _ (by rw [hbec.rest.1]; exact hl)
      simp only [hset]
      refine ⟨trivial, [y], hbec, fun z => ?_, .inl ⟨y, h3, rfl, by rw [hlog]; rfl⟩⟩
      rw [List.mem_singleton]
      constructor
      · rintro rfl
        exact ⟨hl, z, (h3 z).mpr rfl, .refl⟩
      · rintro ⟨_, w, hw, ha⟩
        rw [(h3 w).mp hw] at ha
        exact (leaf_anc s hl ha).symm
  | y1 :: y2 :: l', h1, h2, h3 =>
    simp only [State.aug, State.getItem, h1]
    obtain ⟨ha, hb, hc⟩ := iop_many (st := st) o ((y1 :: y2 :: l').flatMap st.flattened)
    unfold State.store
    rw [hc]
    cases he : (st.iop o (.many (Cat.new st.g ((y1 :: y2 :: l').flatMap st.flattened)))).1.err with
    | some e =>
      left
      obtain ⟨h4, h5⟩ := ha (by rw [he]; simp)
      exact ⟨by rw [he]; simp, h4, h5⟩
    | none =>
      right
      obtain ⟨hbec, hlog⟩ := hb he
      simp only [Option.map_none]
      rw [if_pos (show _ = true by rw [hbec.rest.2.2.1]; exact hi)]
      refine ⟨he, _, hbec, fun y => ?_, .inr ⟨⟨y1, y2, (h3 y1).mp (by simp), (h3 y2).mp (by simp), ?_⟩, _, rfl, hlog⟩⟩
      · rw [Concat.mem_collect, List.mem_flatMap]
        constructor
        · rintro ⟨z, hz, hy⟩
          obtain ⟨ha, hl⟩ := ((flattened_spec s z).2 y).mp hy
          exact ⟨hl, z, (h3 z).mp hz, ha⟩
        · rintro ⟨hl, z, hz, ha⟩
          exact ⟨z, (h3 z).mpr hz, ((flattened_spec s z).2 y).mpr ⟨ha, hl⟩⟩
      · rintro rfl
        rw [List.nodup_cons] at h2
        exact h2.1 (by simp)

/-! ### Values -/

/-- `x[regexp] op= v`, for every object `x` (that is initialised) of every hierarchy with printable names and root
`r`. If it raises nothing has changed and nothing is announced. Otherwise the elements of all `Param`s that are
selected or lie below something selected, each once, have been combined with those of `v`, nothing else has
changed, and everything announced is announced with the final values. -/
theorem aug_item_partial {st : State V} (s : Skel st.g) (re : Name → Bool) {r x : Id} {o : Operand V}
    (ho : Broadcast o.val) (hr : st.g.parent r = none) (hx : Anc st.g r x) (hp : Printable st.g st.name r)
    (hm : st.marks = fun _ => false) (hi : st.inited x = true) :
    ((st.aug x (.re re) o).err ≠ none → (st.aug x (.re re) o).st = st ∧ (st.aug x (.re re) o).log = []) ∧
    ((st.aug x (.re re) o).err = none → ∃ ps, Became st (st.aug x (.re re) o).st o ps ∧
      ∀ y, y ∈ ps ↔ st.g.leaf y = true ∧ ∃ z, Selected st re r x z ∧ Anc st.g z y) ∧
    ∀ t ∈ (st.aug x (.re re) o).log, t.vals = (st.aug x (.re re) o).st.vals := by
  have hann : ∀ (st' : State V) (l : List Tell), ∀ t ∈ announce st' l, t.vals = st'.vals := by
    intro st' l t ht
    unfold announce at ht
    rw [List.mem_map] at ht
    obtain ⟨_, -, rfl⟩ := ht
    rfl
  rcases aug_item s re ho hr hx hp hm hi with ⟨h1, h2, h3⟩ | ⟨h1, ps, h2, h3, h4⟩
  · refine ⟨fun _ => ⟨h2, h3⟩, fun h => absurd h h1, ?_⟩
    rw [h3]; simp
  · refine ⟨fun h => absurd h1 h, fun _ => ⟨ps, h2, h3⟩, ?_⟩
    rcases h4 with ⟨y, -, -, h4⟩ | ⟨-, l, -, h4⟩
    · rw [h4]; exact hann _ _
    · rw [h4]; exact hann _ _

/-- The values of a list of `Param`s determine those of each. -/
theorem values_inj {v w : Id → List V} : ∀ {ps : List Id}, values v ps = values w ps →
    (∀ p ∈ ps, (v p).length = (w p).length) → ∀ p ∈ ps, v p = w p
  | [], _, _, p, hp => by simp at hp
  | q :: ps, h, hl, p, hp => by
    rw [values_cons, values_cons] at h
    obtain ⟨h1, h2⟩ := List.append_inj h (hl q (by simp))
    rcases List.mem_cons.mp hp with rfl | hp
    · exact h1
    · exact values_inj h2 (fun z hz => hl z (List.mem_cons_of_mem _ hz)) p hp

theorem zipWith_replicate (f : V → V → V) (c : V) : ∀ l : List V,
    List.zipWith f l (List.replicate l.length c) = l.map (f · c)
  | [] => rfl
  | a :: l => by
    rw [List.length_cons, List.replicate_succ, List.zipWith_cons_cons, zipWith_replicate f c l, List.map_cons]

/-- With a number: every element. -/
theorem Became.number {st st' : State V} {op : V → V → V} {c : V} {ps : List Id}
    (h : Became st st' (number op c) ps) : ∀ p ∈ ps, st'.vals p = (st.vals p).map (op · c) := by
  obtain ⟨w, h1, h2⟩ := h.value
  cases h1
  have e : values st'.vals ps = values (fun p => (st.vals p).map (op · c)) ps := by
    rw [h2]
    show List.zipWith op _ _ = _
    rw [zipWith_replicate]
    unfold values
    rw [List.map_flatMap]
  exact values_inj e fun p hp => by rw [h.sizes p hp, List.length_map]

/-- `m[regexp] op= c` for a number `c` on the root of an initialised hierarchy with printable names, if it does
not raise: every element `v` of every `Param` that matches, or lies below something that matches, is now
`v op c`; all other `Param`s keep their values. Missing for the full claim: as for `grep_root_partial`; objects
that are not initialised (`uninitialised_fails`), a part as the only match (`only_part_fails`), single positions
(`one_position_fails`). -/
theorem aug_number_partial {st : State V} (s : Skel st.g) (re : Name → Bool) {m : Id} {op : V → V → V} {c : V}
    (hr : st.g.parent m = none) (hp : Printable st.g st.name m) (hm : st.marks = fun _ => false)
    (hi : st.inited m = true) (h : (st.aug m (.re re) (number op c)).err = none) :
    (∀ y z p, st.g.leaf y = true → Path st.g st.name m z p → re p = true → Anc st.g z y →
      (st.aug m (.re re) (number op c)).st.vals y = (st.vals y).map (op · c)) ∧
    (∀ y, (∀ z p, Path st.g st.name m z p → re p = true → ¬ (st.g.leaf y = true ∧ Anc st.g z y)) →
      (st.aug m (.re re) (number op c)).st.vals y = st.vals y) := by
  obtain ⟨-, h2, -⟩ := aug_item_partial s re (o := number op c) (fun n l e => by cases e; exact List.length_replicate)
    hr .refl hp hm hi
  obtain ⟨ps, h3, h4⟩ := h2 h
  refine ⟨fun y z p hl h5 h6 h7 => h3.number y ((h4 y).mpr ⟨hl, z, ⟨h5.anc, h5.ne s, p, h5, h6⟩, h7⟩),
    fun y hy => h3.others y fun hm => ?_⟩
  obtain ⟨hl, z, ⟨-, -, p, h5, h6⟩, h7⟩ := (h4 y).mp hm
  exact hy z p h5 h6 ⟨hl, h7⟩

/-- When `x[regexp] op= c` raises for an initialised object: nothing matches, the only match is a part, or there
are several matches without any `Param` at or below them. -/
theorem aug_number_raises {st : State V} (s : Skel st.g) (re : Name → Bool) {r x : Id} {op : V → V → V} {c : V}
    {e : AErr} (hr : st.g.parent r = none) (hx : Anc st.g r x) (hp : Printable st.g st.name r)
    (hm : st.marks = fun _ => false) (hi : st.inited x = true)
    (h : (st.aug x (.re re) (number op c)).err = some e) :
    (e = .item .attribute ∧ ∀ y, ¬ Selected st re r x y) ∨
    (e = .type ∧ ∃ z, (∀ y, Selected st re r x y ↔ y = z) ∧ st.g.leaf z = false) ∨
    (e = .item .value ∧ ∀ y z, Selected st re r x z → Anc st.g z y → st.g.leaf y = false) := by
  obtain ⟨l, h1, h2, h3, -, -⟩ := grep_found s re hr hx hp hm
  match l, h1, h2, h3 with
  | [], h1, _, h3 =>
    simp only [State.aug, State.getItem, h1, Out.fail] at h
    cases h
    exact .inl ⟨rfl, fun y hy => by simpa using (h3 y).mpr hy⟩
  | [y], h1, _, h3 =>
    have h3 : ∀ z, Selected st re r x z ↔ z = y := fun z => by rw [← h3 z, List.mem_singleton]
    have hb : Broadcast (number op c).val := fun n l e => by cases e; exact List.length_replicate
    cases hl : st.g.leaf y with
    | false =>
      simp only [State.aug, State.getItem, h1, State.iop, hl, State.store, Out.fail] at h
      cases h
      exact .inr (.inl ⟨rfl, y, h3, hl⟩)
    | true =>
      exfalso
      have he : (st.iop (number op c) (.one y)).1.err = none := by
        simp [State.iop, hl, Operand.apply, number]
      obtain ⟨-, hbec, -, hback⟩ := (iop_one (st := st) (number op c) hb (x := y)).2 he
      have hget : st.getItem re x = (st, .ok (.one y)) := by unfold State.getItem; rw [h1]
      have hi' : (st.iop (number op c) (.one y)).1.st.inited x = true := by rw [hbec.rest.2.2.1]; exact hi
      have hl' : (st.iop (number op c) (.one y)).1.st.g.leaf y = true := by rw [hbec.rest.1]; exact hl
      simp only [State.aug, hget, State.store, he, hback, Option.map_some, State.setKey, hi', if_true,
        hbec.getItem_one s hr hx hp hm h3, assignTell_self _ hl'] at h
      cases h
  | y1 :: y2 :: l', h1, h2, h3 =>
    right; right
    by_cases hc : Concat.collect ((y1 :: y2 :: l').flatMap st.flattened) = []
    · have hc' : (Cat.new st.g ((y1 :: y2 :: l').flatMap st.flattened)).params = [] := hc
      simp only [State.aug, State.getItem, h1, State.iop, hc', if_true, State.store, Out.fail] at h
      cases h
      refine ⟨rfl, fun y z hz hy => ?_⟩
      by_contra hl
      have : y ∈ Concat.collect ((y1 :: y2 :: l').flatMap st.flattened) := by
        rw [Concat.mem_collect, List.mem_flatMap]
        exact ⟨z, (h3 z).mpr hz, ((flattened_spec s z).2 y).mpr ⟨hy, by simpa using hl⟩⟩
      rw [hc] at this
      cases this
    · exfalso
      have hc' : ¬ (Cat.new st.g ((y1 :: y2 :: l').flatMap st.flattened)).params = [] := hc
      have he : (st.iop (number op c) (.many (Cat.new st.g ((y1 :: y2 :: l').flatMap st.flattened)))).1.err = none := by
        simp only [State.iop, if_neg hc', Operand.apply, number, Option.map_some, zipWith_replicate, State.assignTell,
          State.assignTo, exactly, List.length_map, if_true]
      obtain ⟨-, hb, hback⟩ := iop_many (st := st) (number op c) ((y1 :: y2 :: l').flatMap st.flattened)
      obtain ⟨hbec, -⟩ := hb he
      simp only [State.aug, State.getItem, h1, State.store, he, hback, Option.map_none,
        show (st.iop (number op c) (.many (Cat.new st.g ((y1 :: y2 :: l').flatMap st.flattened)))).1.st.inited x = true
          from by rw [hbec.rest.2.2.1]; exact hi, if_true] at h
      cases h

/-! ### Positions -/

theorem assign_other {s : List Nat} {val vals : List V} {i : Nat} (h : i ∉ s) :
    (Concat.assign vals s val)[i]? = vals[i]? := by
  unfold Concat.assign
  have key : ∀ (l : List (Nat × V)) (vals : List V), (∀ e ∈ l, e.1 ≠ i) →
      (l.foldl (fun acc e => acc.set e.1 e.2) vals)[i]? = vals[i]? := by
    intro l
    induction l with
    | nil => intro _ _; rfl
    | cons e l ih =>
      intro vals h
      rw [List.foldl_cons, ih _ (fun e' he' => h e' (List.mem_cons_of_mem _ he')),
        List.getElem?_set_ne (h e List.mem_cons_self)]
  refine key _ _ fun e he => ?_
  rintro rfl
  exact h (List.of_mem_zip he).1

theorem flattened_congr {st st' : State V} (h : st'.g = st.g) (x : Id) : st'.flattened x = st.flattened x := by
  unfold State.flattened; rw [h]

theorem whole_writeCells {st : State V} (s : Skel st.g) (x : Id) (l : List Nat) (w : List V) :
    (st.writeCells x l w).whole x = Concat.assign (st.whole x) l w := by
  obtain ⟨h1, -⟩ := spread_values (st.flattened x) (Concat.assign (st.whole x) l w) st.vals (flattened_spec s x).1
    (Concat.assign_length _ _ _)
  exact h1

theorem writeCells_other {st : State V} {x : Id} {l : List Nat} {w : List V} {q : Id} (h : q ∉ st.flattened x) :
    (st.writeCells x l w).vals q = st.vals q := spread_other _ _ _ q h

theorem length_picked {W : List V} : ∀ {l : List Nat}, (∀ i ∈ l, i < W.length) → (l.filterMap (W[·]?)).length = l.length
  | [], _ => rfl
  | i :: l, h => by
    rw [List.filterMap_cons, List.getElem?_eq_getElem (h i (by simp))]
    simp only [List.length_cons]
    rw [length_picked fun j hj => h j (List.mem_cons_of_mem _ hj)]

theorem picked_get {W : List V} : ∀ {l : List Nat}, (∀ i ∈ l, i < W.length) → ∀ (j i : Nat), l[j]? = some i →
    (l.filterMap (W[·]?))[j]? = W[i]?
  | [], _, j, i, h => by simp at h
  | a :: l, h, j, i, hj => by
    rw [List.filterMap_cons, List.getElem?_eq_getElem (h a (by simp))]
    cases j with
    | zero =>
      obtain rfl : a = i := by simpa using hj
      simp [h a (by simp)]
    | succ j =>
      simp only [List.getElem?_cons_succ]
      exact picked_get (fun k hk => h k (List.mem_cons_of_mem _ hk)) j i (by simpa using hj)

/-- `x[sel] op= v` for a slice or an array of positions, each once, of an initialised object of any hierarchy: if
it raises nothing has changed; otherwise the `j`-th selected element of the array of `x` has been combined with
the `j`-th element of `v`, the others are as before, so is everything outside `x`, and the change is announced
once, by `x.trigger_update()`, with the final values. -/
theorem aug_positions {st : State V} (s : Skel st.g) {x : Id} {view : Bool} {l : List Nat} {o : Operand V}
    (ho : Broadcast o.val) (hi : st.inited x = true) (hn : l.Nodup) :
    ((st.aug x (.sel view l) o).err ≠ none → (st.aug x (.sel view l) o).st = st ∧
      (st.aug x (.sel view l) o).log = []) ∧
    ((st.aug x (.sel view l) o).err = none →
      (∃ u, o.val l.length = some u ∧ ∀ (j i : Nat) (v c : V), l[j]? = some i → (st.whole x)[i]? = some v →
        u[j]? = some c → ((st.aug x (.sel view l) o).st.whole x)[i]? = some (o.op v c)) ∧
      (∀ i : Nat, i ∉ l → ((st.aug x (.sel view l) o).st.whole x)[i]? = (st.whole x)[i]?) ∧
      (∀ q, ¬ Anc st.g x q → (st.aug x (.sel view l) o).st.vals q = st.vals q) ∧
      (st.aug x (.sel view l) o).log = [⟨.up x true, (st.aug x (.sel view l) o).st.vals⟩]) := by
  by_cases hr : ∀ i ∈ l, i < (st.whole x).length
  · have hall : l.all (fun i => decide (i < (st.whole x).length)) = true := by
      rw [List.all_eq_true]; exact fun i hi => decide_eq_true (hr i hi)
    cases ha : o.apply (l.filterMap ((st.whole x)[·]?)) with
    | none =>
      simp only [State.aug, hall, if_true, ha]
      exact ⟨fun _ => ⟨rfl, rfl⟩, fun h => by cases h⟩
    | some w =>
      have hw : w.length = l.length := by rw [apply_length ho ha, length_picked hr]
      have key : ∀ st1 : State V, st1.g = st.g → st1.inited x = true → (st1.whole x).length = (st.whole x).length →
          State.store ⟨st1, none, []⟩ x (.sel view l) (some w) =
            ⟨st1.writeCells x l w, none, [⟨.up x true, (st1.writeCells x l w).vals⟩]⟩ := by
        intro st1 _ h2 h3
        simp only [State.store, State.setKey, h2, if_true, h3, hall, exactly, hw, announce, List.map_cons,
          List.map_nil, List.nil_append]
      obtain ⟨u, hu, rfl⟩ := apply_some ha
      rw [length_picked hr] at hu
      have hul := ho _ _ hu
      have hnew : ∀ (j i : Nat) (v c : V), l[j]? = some i → (st.whole x)[i]? = some v → u[j]? = some c →
          (List.zipWith o.op (l.filterMap ((st.whole x)[·]?)) u)[j]? = some (o.op v c) := by
        intro j i v c h1 h2 h3
        rw [List.getElem?_zipWith, picked_get hr j i h1, h2, h3]
      generalize List.zipWith o.op (l.filterMap ((st.whole x)[·]?)) u = w at *
      have hout : ∀ q, ¬ Anc st.g x q → q ∉ st.flattened x := fun q hq h => hq (((flattened_spec s x).2 q).mp h).1
      have hone : (st.writeCells x l w).whole x = Concat.assign (st.whole x) l w := whole_writeCells s x l w
      have hget : ∀ (W : List V) (j i : Nat) (v c : V), W.length = (st.whole x).length → l[j]? = some i →
          (st.whole x)[i]? = some v → u[j]? = some c → (Concat.assign W l w)[i]? = some (o.op v c) := by
        intro W j i v c hW h1 h2 h3
        rw [Concat.assign_get hn hw h1 (by rw [hW]; exact hr i (List.mem_of_getElem? h1)), hnew j i v c h1 h2 h3]
      have hstep : st.aug x (.sel view l) o =
          State.store ⟨if view && st.inited x then st.writeCells x l w else st, none, []⟩ x (.sel view l) (some w) := by
        simp only [State.aug, hall, if_true, ha]
      rw [hstep, hi, Bool.and_true]
      cases view with
      | false =>
        rw [if_neg (by simp), key st rfl hi rfl]
        refine ⟨fun h => absurd rfl h, fun _ => ⟨⟨u, hu, fun j i v c h1 h2 h3 => ?_⟩, fun i h => ?_, fun q hq =>
          writeCells_other (hout q hq), rfl⟩⟩
        · show ((st.writeCells x l w).whole x)[i]? = _
          rw [hone]; exact hget _ j i v c rfl h1 h2 h3
        · show ((st.writeCells x l w).whole x)[i]? = _
          rw [hone]; exact assign_other h
      | true =>
        rw [if_pos rfl, key (st.writeCells x l w) rfl hi (by rw [hone, Concat.assign_length])]
        have htwo := whole_writeCells (st := st.writeCells x l w) s x l w
        rw [hone] at htwo
        refine ⟨fun h => absurd rfl h, fun _ => ⟨⟨u, hu, fun j i v c h1 h2 h3 => ?_⟩, fun i h => ?_, fun q hq => ?_, rfl⟩⟩
        · show (((st.writeCells x l w).writeCells x l w).whole x)[i]? = _
          rw [htwo]
          exact hget _ j i v c (Concat.assign_length _ _ _) h1 h2 h3
        · show (((st.writeCells x l w).writeCells x l w).whole x)[i]? = _
          rw [htwo, assign_other h, assign_other h]
        · exact (writeCells_other (st := st.writeCells x l w) (hout q hq)).trans (writeCells_other (hout q hq))
  · have hall : l.all (fun i => decide (i < (st.whole x).length)) = false := by
      rw [← Bool.not_eq_true, List.all_eq_true]
      exact fun h => hr fun i hi => of_decide_eq_true (h i hi)
    simp only [State.aug, hall, Bool.false_eq_true, if_false]
    exact ⟨fun _ => ⟨rfl, rfl⟩, fun h => by cases h⟩

/-! ### Attributes and variables -/

/-- `m.a op= v`, where `m.a` is the `Param` `p`, the only child of `m` with the printed name `a`: if it raises nothing
has changed, otherwise exactly the elements of `p` have been combined with those of `v`; announced twice, with the
final values. (Unlike for `m['a'] op= v`, `m` need not be initialised.) -/
theorem aug_attr {st : State V} {m p : Id} {a : Name} {o : Operand V} (ho : Broadcast o.val)
    (hk : p ∈ st.g.kids m) (hl : st.g.leaf p = true) (ha : adjust (st.name p) = some a)
    (hu : ∀ c ∈ st.g.kids m, adjust (st.name c) = some a → c = p)
    (hp : ∀ c ∈ st.g.kids m, (adjust (st.name c)).isSome = true) :
    ((st.augAttr m a p o).err ≠ none → (st.augAttr m a p o).st = st ∧ (st.augAttr m a p o).log = []) ∧
    ((st.augAttr m a p o).err = none → Became st (st.augAttr m a p o).st o [p] ∧
      (st.augAttr m a p o).log = announce (st.augAttr m a p o).st [.write p, .write p]) := by
  obtain ⟨h1, h2⟩ := iop_one (st := st) o ho (x := p)
  unfold State.augAttr
  cases he : (st.iop o (.one p)).1.err with
  | some e => simp only [he]; exact ⟨fun _ => h1 (by rw [he]; simp), fun h => by cases h⟩
  | none =>
    obtain ⟨-, hbec, hlog, -⟩ := h2 he
    have hset : (st.iop o (.one p)).1.st.setAttr m a ((st.iop o (.one p)).1.st.vals p) =
        ⟨(st.iop o (.one p)).1.st, none, announce (st.iop o (.one p)).1.st [.write p]⟩ := by
      have hfind : (st.g.kids m).find? (fun c => decide (adjust (st.name c) = some a)) = some p := by
        cases hf : (st.g.kids m).find? (fun c => decide (adjust (st.name c) = some a)) with
        | none =>
          have := List.find?_eq_none.mp hf p hk
          simp [ha] at this
        | some c => rw [hu c (List.mem_of_find?_eq_some hf) (by simpa using List.find?_some hf)]
      unfold State.setAttr
      rw [hbec.rest.1, hbec.rest.2.1, if_pos (List.all_eq_true.mpr hp), hfind]
      exact assignTell_self _ (by rw [hbec.rest.1]; exact hl)
    simp only [he, hset]
    exact ⟨fun h => absurd rfl h, fun _ => ⟨hbec, by rw [hlog]; rfl⟩⟩

/-- `c op= v` for a variable `c` holding `m[regexp]` for several parameters: the values are right, but the variable
holds `None` afterwards. -/
theorem augVar_values {st : State V} (o : Operand V) (l : List Id)
    (h : (augVar st (Cat.new st.g l) o).1.err = none) :
    Became st (augVar st (Cat.new st.g l) o).1.st o (Concat.collect l) ∧ (augVar st (Cat.new st.g l) o).2 = none := by
  refine ⟨((iop_many o l).2.1 h).1, ?_⟩
  show (if (augVar st (Cat.new st.g l) o).1.err = none then none else _) = none
  rw [h]; rfl

/-! ### Updates -/

theorem mem_changedOf {l : List Notify.Call} {z : Id} : z ∈ Notify.changedOf l ↔ .changed z ∈ l := by
  unfold Notify.changedOf
  rw [List.mem_filterMap]
  constructor
  · rintro ⟨c, hc, e⟩
    cases c with
    | changed y => cases e; exact hc
    | user u => cases e
  · exact fun h => ⟨_, h, rfl⟩

theorem calls_announce (st : State V) (l : List Tell) (s : Notify.State T) :
    (announce st l).flatMap (fun t => t.tell.calls s) = l.flatMap (Tell.calls s) := by
  unfold announce
  rw [List.flatMap_map]

/-- After `x[regexp] op= v` that does not raise, in an initialised hierarchy in which updates are on: every object
above a `Param` that was changed, and not under construction, has been recalculated (with the final values:
`aug_item_partial`). Missing for the full claim: it is recalculated more than once (`updated_twice_fails`). -/
theorem aug_updates_partial {st : State V} {n : Notify.State T} (hn : Notify.Reach n) (hg : n.heap.toGraph = st.g)
    (re : Name → Bool) {r x y z w : Id} {o : Operand V} (ho : Broadcast o.val) (hr : st.g.parent r = none)
    (hx : Anc st.g r x) (hp : Printable st.g st.name r) (hm : st.marks = fun _ => false) (hi : st.inited x = true)
    (h : (st.aug x (.re re) o).err = none) (hsel : Selected st re r x w) (hy : Anc st.g w y)
    (hl : st.g.leaf y = true) (hz : Anc st.g z y) (hne : z ≠ y) (hz' : n.heap.inInit z = false)
    (hon : ∀ q, n.on q = true) : .changed z ∈ (st.aug x (.re re) o).calls n := by
  have s : Skel st.g := hg ▸ hn.inv.skel
  have hmem : ∀ ps : List Id, (∀ y, y ∈ ps ↔ st.g.leaf y = true ∧ ∃ z, Selected st re r x z ∧ Anc st.g z y) → y ∈ ps :=
    fun ps h => (h y).mpr ⟨hl, w, hsel, hy⟩
  have hb : z < n.heap.next ∧ y < n.heap.next := by
    have hb : ∀ {a b : Id}, Anc st.g a b → a ≠ b → a < st.g.next ∧ b < st.g.next := by
      intro a b hab
      induction hab with
      | refl => exact fun h => absurd rfl h
      | @step q c h1 h2 ih =>
        intro _
        by_cases hq : a = q
        · subst hq; exact ⟨(s.alloc _ _ h2).2, (s.alloc _ _ h2).1⟩
        · exact ⟨(ih hq).1, (s.alloc _ _ h2).1⟩
    have := hb hz hne
    rw [← hg] at this
    exact this
  unfold Out.calls
  rcases aug_item s re ho hr hx hp hm hi with ⟨h1, -, -⟩ | ⟨-, ps, -, h3, h4⟩
  · exact absurd h h1
  have hyps := hmem ps h3
  rcases h4 with ⟨y', -, hps, h4⟩ | ⟨-, l, hps, h4⟩
  · rw [hps, List.mem_singleton] at hyps
    subst hyps
    rw [h4, calls_announce, List.flatMap_cons, List.mem_append]
    left
    obtain ⟨L, hL⟩ := Notify.above_exists hn y
    have hw := Notify.write_updates_ancestors hn hb.2 (by rw [show n.heap.leaf = n.heap.toGraph.leaf from rfl, hg]; exact hl)
      hL (fun q _ => hon q)
    exact mem_changedOf.mp (by
      show z ∈ Notify.changedOf (n.write y)
      rw [hw.1]
      exact (hw.2.2 z).mpr ⟨by rw [hg]; exact hz, hne⟩)
  · rw [h4, calls_announce, List.flatMap_map]
    have := Concat.first_assignment_updates_partial (V := V) hn l (fun _ => []) [] [] (y := z) (p := y)
      (by rw [hps, Concat.mem_collect] at hyps; exact hyps) (by rw [hg]; exact hz) hne hb.1 hz' (fun q _ => hon q)
    unfold Concat.updateAll at this
    rw [hg] at this
    rw [hps]
    exact this

/-- If the only match is a `Param`, everything above it is recalculated exactly twice: by the operator, and by the
assignment that ends the statement. -/
theorem aug_one_updates {st : State V} {n : Notify.State T} (hn : Notify.Reach n) (hg : n.heap.toGraph = st.g)
    (re : Name → Bool) {r x y : Id} {o : Operand V} (ho : Broadcast o.val) (hr : st.g.parent r = none)
    (hx : Anc st.g r x) (hp : Printable st.g st.name r) (hm : st.marks = fun _ => false) (hi : st.inited x = true)
    (h : (st.aug x (.re re) o).err = none) (hsel : ∀ z, Selected st re r x z ↔ z = y) (hy : y < n.heap.next)
    (hon : ∀ q, n.on q = true) {L : List Id} (hL : Notify.Above n.heap.toGraph y L) :
    Notify.changedOf ((st.aug x (.re re) o).calls n) = L ++ L := by
  have s : Skel st.g := hg ▸ hn.inv.skel
  rcases aug_item s re ho hr hx hp hm hi with ⟨h1, -, -⟩ | ⟨-, ps, -, h3, h4⟩
  · exact absurd h h1
  rcases h4 with ⟨y', h5, hps, h4⟩ | ⟨⟨a, b, ha, hb, hne⟩, -⟩
  · have : y = y' := (h5 y).mp ((hsel y).mpr rfl)
    subst this
    have hl : st.g.leaf y = true := ((h3 y).mp (by rw [hps]; simp)).1
    have hw := Notify.write_updates_ancestors hn hy (by rw [show n.heap.leaf = n.heap.toGraph.leaf from rfl, hg]; exact hl)
      hL (fun q _ => hon q)
    unfold Out.calls
    rw [h4, calls_announce]
    show Notify.changedOf (n.write y ++ (n.write y ++ [])) = _
    rw [List.append_nil]
    unfold Notify.changedOf at hw ⊢
    rw [List.filterMap_append, hw.1]
  · exact absurd (((hsel a).mp ha).trans ((hsel b).mp hb).symm) hne

/-! ### Examples and faults -/

/-- `+= 5`. -/
def plus5 : Operand Nat := number (· + ·) 5

example : (demo.aug 0 (.re (starts "rbf")) plus5).err = none ∧
    ((demo.aug 0 (.re (starts "rbf")) plus5).st.vals 3, (demo.aug 0 (.re (starts "rbf")) plus5).st.vals 7,
      (demo.aug 0 (.re (starts "rbf")) plus5).st.vals 1) = ([17, 18, 19], [23, 24], [10, 11]) ∧
    (demo.aug 0 (.re (starts "a")) plus5).st.vals 1 = [15, 16] ∧
    (demo.aug 0 (.re (starts "x")) plus5).err = some (.item .attribute) := by decide +kernel

example : (demo.augAttr 0 "a".toList 1 plus5).err = none ∧ (demo.augAttr 0 "a".toList 1 plus5).st.vals 1 = [15, 16] ∧
    1 ∈ demo.g.kids 0 ∧ demo.g.leaf 1 = true ∧
    ∀ c ∈ demo.g.kids 0, (adjust (demo.name c)).isSome = true ∧ (adjust (demo.name c) = some "a".toList → c = 1) := by
  decide +kernel

example : demo.whole 0 = [10, 11, 12, 13, 14, 15, 18, 19, 16, 17] ∧
    (demo.aug 0 (.sel true [1, 2, 3]) plus5).st.whole 0 = [10, 16, 17, 18, 14, 15, 18, 19, 16, 17] ∧
    (demo.aug 2 (.sel false [3, 0]) ⟨(· + ·), exactly [100, 200]⟩).st.whole 0 = [10, 11, 212, 13, 14, 115, 18, 19, 16, 17] ∧
    (demo.aug 0 (.sel true [1, 2, 3]) plus5).err = none := by decide +kernel

example : (demo.aug 0 (.re (starts "rbf")) plus5).calls Notify.demo ≠ [] ∧ Notify.demo.heap.toGraph.next = demo.g.next ∧
    (∀ q, q < 8 → Notify.demo.on q = true ∧ Notify.demo.heap.inInit q = false) := by decide +kernel

/-- `m['a'] += 5` recalculates `m` twice, and `m['rbf'] += 5` recalculates `rbf` twice and `sub` three times. -/
theorem updated_twice_fails :
    Notify.changedOf ((demo.aug 0 (.re (starts "a")) plus5).calls Notify.demo) = [0, 0] ∧
    Notify.changedOf ((demo.augAttr 0 "a".toList 1 plus5).calls Notify.demo) = [0, 0] ∧
    Notify.changedOf ((demo.aug 0 (.re (starts "rbf")) plus5).calls Notify.demo) = [6, 6, 2, 6, 2, 0] := by
  decide +kernel

/-- On a model that is not initialised `m['a'] += 5` and `m['rbf'] += 5` raise an exception, but the values have been
changed. -/
theorem uninitialised_fails :
    let st : State Nat := { demo with inited := fun _ => false }
    (st.aug 0 (.re (starts "a")) plus5).err = some (.item .attribute) ∧
    (st.aug 0 (.re (starts "a")) plus5).st.vals 1 = [15, 16] ∧ st.vals 1 = [10, 11] ∧
    (st.aug 0 (.re (starts "rbf")) plus5).err = some (.item .attribute) ∧
    (st.aug 0 (.re (starts "rbf")) plus5).st.vals 4 = [20] ∧ st.vals 4 = [15] := by decide +kernel

/-- The expression `rbf$` (here: the exact name). -/
def named (t : String) (s : Name) : Bool := decide (s = t.toList)

/-- If the only match is a part, `m['rbf$'] += 5` raises `TypeError`, although `m['rbf$'] = 5` assigns to all its
parameters. -/
theorem only_part_fails : (demo.aug 0 (.re (named "rbf")) plus5).err = some .type ∧
    (demo.setKey 0 (.re (named "rbf")) (fun n => some (List.replicate n 5))).err = none ∧
    (demo.setKey 0 (.re (named "rbf")) (fun n => some (List.replicate n 5))).st.vals 7 = [5, 5] := by decide +kernel

/-- A single position can be read but neither assigned to nor changed in place. -/
theorem one_position_fails : (demo.whole 0)[3]? = some 13 ∧ (demo.aug 0 (.int 3) plus5).err = some .type ∧
    (demo.setKey 0 (.int 3) (fun n => some (List.replicate n 5))).err = some .type ∧
    (demo.aug 0 (.sel true [3]) plus5).err = none := by decide +kernel

/-- After `c = m['rbf']; c += 5` the values are right, but `c` is `None`. -/
theorem variable_lost_fails : (augVar demo (Cat.new demo.g [3, 4, 7]) plus5).1.err = none ∧
    (augVar demo (Cat.new demo.g [3, 4, 7]) plus5).1.st.vals 4 = [20] ∧
    (augVar demo (Cat.new demo.g [3, 4, 7]) plus5).2.isNone = true := by decide +kernel

/-- After a renaming of another child that was refused (`p.name = '2a'` raises `NameError`, but keeps the name:
nameable.py:64-74) `m.a += 5` raises, but the values have been changed. -/
theorem attr_bad_name_fails :
    let st : State Nat := { demo with name := Hier.upd demo.name 5 "2a".toList }
    (st.augAttr 0 "a".toList 1 plus5).err = some (.item .name) ∧
    (st.augAttr 0 "a".toList 1 plus5).st.vals 1 = [15, 16] := by decide +kernel

end Paramz.Select

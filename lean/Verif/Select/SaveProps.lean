import Verif.Select.Save
import Verif.Select.Props

/-!
# Saving the parameters to a file (C89)
-/

namespace Paramz.Select

open Paramz.Hier (Id Graph Trav)
open Paramz.Hier.Graph (Anc Skel)
open Paramz.Names (Name adjust)

variable {V : Type}

/-! ### Lemmas -/

theorem joinM_some {α β : Type} {R : β → α → Prop} : ∀ {bs : List β} {f : β → Option (List α)} {g : β → List β}
    {l : List α}, (∀ b ∈ bs, ∀ k, f b = some k → List.Forall₂ R (g b) k) → joinM (bs.map f) = some l →
    List.Forall₂ R (bs.flatMap g) l
  | [], _, _, l, _, h => by cases h; exact .nil
  | b :: bs, f, g, l, hf, h => by
    rw [List.map_cons] at h
    cases hb : f b with
    | none => rw [hb] at h; cases h
    | some k =>
      rw [hb] at h
      simp only [joinM, Option.map_eq_some_iff] at h
      obtain ⟨r, hr, rfl⟩ := h
      rw [List.flatMap_cons]
      exact List.rel_append (hf b List.mem_cons_self k hb)
        (joinM_some (fun c hc => hf c (List.mem_cons_of_mem _ hc)) hr)

theorem joinM_isSome {α β : Type} {f : β → Option (List α)} : ∀ {bs : List β}, (∀ b ∈ bs, (f b).isSome = true) →
    (joinM (bs.map f)).isSome = true
  | [], _ => rfl
  | b :: bs, h => by
    have h1 := h b List.mem_cons_self
    have h2 := joinM_isSome (f := f) (bs := bs) (fun c hc => h c (List.mem_cons_of_mem _ hc))
    rw [List.map_cons]
    cases hb : f b with
    | none => rw [hb] at h1; cases h1
    | some k =>
      simp only [joinM, Option.isSome_map]
      exact h2

/-- A path from `x`, seen from the parent of `x`. -/
theorem Path.cons {g : Graph} {name : Id → Name} {r x y : Id} {a p : Name} (hx : g.parent x = some r)
    (ha : adjust (name x) = some a) (h : Path g name x y p) : Path g name r y (a ++ '.' :: p) := by
  induction h with
  | child hc hb => exact .step (.child hx ha) hc hb
  | @step q c s b h1 hc hb ih =>
    have : a ++ '.' :: (s ++ '.' :: b) = (a ++ '.' :: s) ++ '.' :: b := by simp
    rw [this]
    exact .step ih hc hb

theorem prefix_rel {α : Type} {R S : Id → Name → Prop} {a : Option α} {u : α → Name → Name} :
    ∀ {L : List Id} {l k : List Name}, (∀ b, a = some b → ∀ y p, R y p → S y (u b p)) → List.Forall₂ R L l →
    joinM (l.map (fun y => a.map (fun b => [u b y]))) = some k → List.Forall₂ S L k
  | _, _, k, _, .nil, h => by cases h; exact .nil
  | y :: L, p :: l, k, hS, .cons h1 h2, h => by
    rw [List.map_cons] at h
    cases ha : a with
    | none => rw [ha] at h; cases h
    | some b =>
      rw [ha] at h
      simp only [Option.map_some, joinM, Option.map_eq_some_iff] at h
      obtain ⟨r, hr, rfl⟩ := h
      refine .cons (hS b ha y p h1) (prefix_rel (a := a) (u := u) hS h2 ?_)
      rw [ha]
      exact hr

/-- The names line up with the `Param`s in the order of the hierarchy. -/
theorem namesF_rel {st : State V} (s : Skel st.g) : ∀ (n : Nat) (x : Id) (l : List Name), st.g.leaf x = false →
    st.namesF n x = some l → List.Forall₂ (Path st.g st.name x) (State.flattenedF st.g n x) l
  | 0, _, _, _, h => by cases h; exact .nil
  | n + 1, x, l, hx, h => by
    unfold State.namesF at h
    rw [hx] at h
    simp only [Bool.false_eq_true, if_false] at h
    unfold State.flattenedF
    rw [hx]
    simp only [Bool.false_eq_true, if_false]
    refine joinM_some (fun c hc k hk => ?_) h
    have hp : st.g.parent c = some x := (s.mem_iff c x).mp hc
    unfold State.withSelf at hk
    by_cases hl : st.g.leaf c = true
    · rw [if_pos hl] at hk
      cases n with
      | zero => cases hk; exact .nil
      | succ n =>
        unfold State.namesF at hk
        rw [if_pos hl] at hk
        unfold State.flattenedF
        rw [if_pos hl]
        cases ha : adjust (st.name c) with
        | none => rw [ha] at hk; cases hk
        | some a =>
          rw [ha] at hk
          cases hk
          exact .cons (.child hp ha) .nil
    · rw [if_neg hl] at hk
      cases hn : st.namesF n c with
      | none => rw [hn] at hk; cases hk
      | some k' =>
        rw [hn] at hk
        simp only [Option.bind_some] at hk
        exact prefix_rel (u := fun a y => a ++ '.' :: y) (fun a ha y p hy => hy.cons hp ha)
          (namesF_rel s n c k' (by simpa using hl) hn) hk

theorem namesF_isSome {st : State V} (s : Skel st.g) : ∀ (n : Nat) (x : Id),
    (∀ y, Anc st.g x y → y ≠ x ∨ st.g.leaf x = true → (adjust (st.name y)).isSome = true) →
    (st.namesF n x).isSome = true
  | 0, _, _ => rfl
  | n + 1, x, h => by
    unfold State.namesF
    by_cases hl : st.g.leaf x = true
    · rw [if_pos hl, Option.isSome_map]
      exact h x .refl (.inr hl)
    · rw [if_neg hl]
      refine joinM_isSome fun c hc => ?_
      have hp : st.g.parent c = some x := (s.mem_iff c x).mp hc
      have hne : ∀ y, Anc st.g c y → y ≠ x := fun y hy e => by
        subst e
        have := s.anc_antisymm hy (.step .refl hp)
        subst this
        obtain ⟨d, hd⟩ := s.acyclic
        exact Nat.lt_irrefl _ (hd _ _ hp)
      have hcs : ∀ y, Anc st.g c y → (adjust (st.name y)).isSome = true := fun y hy =>
        h y ((Anc.step .refl hp).trans hy) (.inl (hne y hy))
      have hi := namesF_isSome s n c (fun y hy _ => hcs y hy)
      unfold State.withSelf
      split
      · exact hi
      · cases hk : st.namesF n c with
        | none => rw [hk] at hi; cases hi
        | some k =>
          simp only [Option.bind_some]
          refine joinM_isSome fun y _ => ?_
          rw [Option.isSome_map]
          exact hcs c .refl

theorem gather_eq {st : State V} (s : Skel st.g) (hm : st.marks = fun _ => false) (x : Id) :
    st.gather x = st.flattened x := by
  have h0 := Hier.Graph.traverse_trace s (bad := fun _ _ => false) x
  rw [visitAll_mem _ _ (fun _ _ _ => rfl)] at h0
  have ht : (st.g.traverse (fun _ _ => false) Hier.Graph.fresh x).trace = st.g.subtree x := congrArg Prod.fst h0
  have e : st.flattened x = (st.g.subtree x).filter st.g.leaf := flattenedF_eq s _ x
  unfold State.gather
  rw [hm, e, ← ht]
  rfl

/-- The datasets for `Param`s and names. -/
def sets (vals : Id → List V) (l : List (Id × Name)) : File V := l.map (fun e => (under e.2, vals e.1))

theorem writeAll_eq (vals : Id → List V) : ∀ (l : List (Id × Name)) (f : File V), (f.map Prod.fst).Nodup →
    writeAll vals l f = if ((f ++ sets vals l).map Prod.fst).Nodup then some (f ++ sets vals l) else none
  | [], f, h => by
    unfold writeAll sets
    rw [List.map_nil, List.append_nil, if_pos h]
  | (p, n) :: r, f, h => by
    unfold writeAll File.create
    have e : f ++ sets vals ((p, n) :: r) = (f ++ [(under n, vals p)]) ++ sets vals r := by
      unfold sets; simp
    by_cases hn : under n ∈ f.map Prod.fst
    · rw [if_pos hn, if_neg]
      · rfl
      · intro hd
        rw [List.map_append, List.nodup_append] at hd
        exact hd.2.2 _ hn _ (by unfold sets; simp) rfl
    · rw [if_neg hn, e]
      simp only [Option.bind_some]
      refine writeAll_eq vals r _ ?_
      rw [List.map_append, List.nodup_append]
      refine ⟨h, List.nodup_singleton _, ?_⟩
      intro a ha b hb hab
      rw [List.map_cons, List.map_nil, List.mem_singleton] at hb
      subst hab
      rw [hb] at ha
      exact hn ha

/-- All datasets. -/
def datasets (st : State V) (arr : List V) (m : Id) (names : List Name) : File V :=
  sets st.vals ((st.gather m).zip names) ++ [(wholeName, arr)]

theorem save_eq {st : State V} {junk : List V} {m : Id} {names : List Name} (hn : st.paramNames m = some names) :
    st.save junk m = if ((datasets st (st.paramArray junk m) m names).map Prod.fst).Nodup
      then .ok (datasets st (st.paramArray junk m) m names) else .error .typeError := by
  unfold State.save
  rw [hn]
  simp only
  rw [writeAll_eq _ _ ([] : File V) List.nodup_nil]
  unfold datasets
  generalize hL : sets st.vals ((st.gather m).zip names) = L
  simp only [List.nil_append]
  by_cases hd : (L.map Prod.fst).Nodup
  · rw [if_pos hd]
    simp only [Option.bind_some]
    unfold File.create
    by_cases hw : wholeName ∈ L.map Prod.fst
    · rw [if_pos hw, if_neg]
      intro h
      rw [List.map_append, List.nodup_append] at h
      exact h.2.2 _ hw _ (by simp) rfl
    · rw [if_neg hw, if_pos]
      rw [List.map_append, List.nodup_append]
      refine ⟨hd, List.nodup_singleton _, ?_⟩
      intro a ha b hb hab
      rw [List.map_cons, List.map_nil, List.mem_singleton] at hb
      subst hab
      rw [hb] at ha
      exact hw ha
  · rw [if_neg hd]
    simp only [Option.bind_none]
    rw [if_neg]
    intro h
    rw [List.map_append, List.nodup_append] at h
    exact hd h.1

theorem mem_zip_rel {R : Id → Name → Prop} : ∀ {L : List Id} {l : List Name}, List.Forall₂ R L l →
    (∀ e ∈ L.zip l, R e.1 e.2) ∧ ∀ x ∈ L, ∃ p, (x, p) ∈ L.zip l
  | _, _, .nil => ⟨by simp, by simp⟩
  | x :: L, p :: l, .cons h1 h2 => by
    obtain ⟨h3, h4⟩ := mem_zip_rel h2
    refine ⟨fun e he => ?_, fun y hy => ?_⟩
    · rw [List.zip_cons_cons, List.mem_cons] at he
      rcases he with rfl | he
      · exact h1
      · exact h3 e he
    · rw [List.zip_cons_cons]
      rcases List.mem_cons.mp hy with rfl | hy
      · exact ⟨p, List.mem_cons_self⟩
      · obtain ⟨q, hq⟩ := h4 y hy
        exact ⟨q, List.mem_cons_of_mem _ hq⟩

/-! ### The property -/

/-- `q` is `p` with `_` for every dot. -/
def Underscored (p q : Name) : Prop := List.Forall₂ (fun c d => (c ≠ '.' ∧ d = c) ∨ (c = '.' ∧ d = '_')) p q

theorem underscored_iff {p : Name} : ∀ {q : Name}, Underscored p q ↔ q = under p := by
  induction p with
  | nil => intro q; exact ⟨fun h => by cases h; rfl, fun h => by subst h; exact .nil⟩
  | cons c p ih =>
    have hc : ∀ d, ((c ≠ '.' ∧ d = c) ∨ (c = '.' ∧ d = '_')) ↔ d = if c = '.' then '_' else c := by
      intro d
      by_cases h : c = '.' <;> simp [h]
    intro q
    constructor
    · intro h
      cases h with
      | cons h1 h2 => rw [(hc _).mp h1, ih.mp h2]; rfl
    · rintro rfl
      exact .cons ((hc _).mpr rfl) (ih.mpr rfl)

/-- The file has, for every `Param` below `m`, a dataset with its values under its dotted name from `m` with `_`
for the dots; a dataset `param_array` with the values of all of them in the order of the hierarchy; and nothing
else. -/
structure Saved (st : State V) (m : Id) (f : File V) : Prop where
  params : ∀ x p q, st.g.leaf x = true → Path st.g st.name m x p → Underscored p q → (q, st.vals x) ∈ f
  whole : ("param_array".toList, Concat.values st.vals (st.flattened m)) ∈ f
  keys : (f.map Prod.fst).Nodup
  only : ∀ e ∈ f, e = ("param_array".toList, Concat.values st.vals (st.flattened m)) ∨
    ∃ x p q, st.g.leaf x = true ∧ Path st.g st.name m x p ∧ Underscored p q ∧ e = (q, st.vals x)

/-- The names of the `Param`s below `m` stay different with `_` for dots, and are not `param_array`. -/
def Apart (st : State V) (m : Id) : Prop :=
  (∀ x y p q u, st.g.leaf x = true → st.g.leaf y = true → Path st.g st.name m x p → Path st.g st.name m y q →
    Underscored p u → Underscored q u → x = y) ∧
  ∀ x p, st.g.leaf x = true → Path st.g st.name m x p → ¬ Underscored p "param_array".toList

theorem save_cases {st : State V} (s : Skel st.g) {m : Id} (junk : List V) (hl : st.g.leaf m = false)
    (hm : st.marks = fun _ => false) (hi : st.inited m = true) {names : List Name}
    (hn : st.paramNames m = some names) :
    (st.save junk m = .error .typeError ∧ ¬ Apart st m) ∨ (∃ f, st.save junk m = .ok f ∧ Saved st m f ∧ Apart st m) := by
  have hr : List.Forall₂ (Path st.g st.name m) (st.flattened m) names := namesF_rel s _ m names hl hn
  obtain ⟨hz1, hz2⟩ := mem_zip_rel hr
  obtain ⟨hfn, hfm⟩ := flattened_spec (st := st) s m
  have hlen := hr.length_eq
  have hpa : st.paramArray junk m = Concat.values st.vals (st.flattened m) := by
    unfold State.paramArray
    rw [hi, Bool.or_true, if_pos rfl]
  have hpath : ∀ x p, st.g.leaf x = true → Path st.g st.name m x p → (x, p) ∈ (st.flattened m).zip names := by
    intro x p hx hp
    obtain ⟨q, hq⟩ := hz2 x ((hfm x).mpr ⟨hp.anc, hx⟩)
    rw [hp.unique s (hz1 _ hq)]
    exact hq
  have hleaf : ∀ e ∈ (st.flattened m).zip names, st.g.leaf e.1 = true := fun e he =>
    ((hfm _).mp (List.of_mem_zip he).1).2
  have hzn : ((st.flattened m).zip names).Nodup := by
    have : (((st.flattened m).zip names).map Prod.fst).Nodup := by
      rw [List.map_fst_zip (by omega)]; exact hfn
    exact List.Nodup.of_map _ this
  have hkeys : ((datasets st (st.paramArray junk m) m names).map Prod.fst).Nodup ↔ Apart st m := by
    have ek : (datasets st (st.paramArray junk m) m names).map Prod.fst =
        ((st.flattened m).zip names).map (fun e => under e.2) ++ [wholeName] := by
      unfold datasets sets
      rw [gather_eq s hm, List.map_append, List.map_map]
      rfl
    rw [ek, List.nodup_append]
    constructor
    · rintro ⟨h1, -, h3⟩
      refine ⟨fun x y p q u hx hy hp hq e1 e2 => ?_, fun x p hx hp e => ?_⟩
      · have e : under p = under q := (underscored_iff.mp e1).symm.trans (underscored_iff.mp e2)
        have := List.inj_on_of_nodup_map h1 (hpath x p hx hp) (hpath y q hy hq) e
        exact congrArg Prod.fst this
      · exact h3 _ (List.mem_map.mpr ⟨(x, p), hpath x p hx hp, rfl⟩) _ (List.mem_singleton.mpr rfl)
          (underscored_iff.mp e).symm
    · rintro ⟨h1, h2⟩
      refine ⟨List.Nodup.map_on ?_ hzn, List.nodup_singleton _, ?_⟩
      · rintro ⟨x, p⟩ hx ⟨y, q⟩ hy e
        have hxy : x = y := h1 x y p q (under p) (hleaf _ hx) (hleaf _ hy) (hz1 _ hx) (hz1 _ hy)
          (underscored_iff.mpr rfl) (underscored_iff.mpr e)
        subst hxy
        have hpq : p = q := (hz1 _ hx).unique s (hz1 _ hy)
        rw [hpq]
      · intro a ha b hb hab
        obtain ⟨⟨x, p⟩, he, rfl⟩ := List.mem_map.mp ha
        rw [List.mem_singleton] at hb
        subst hb
        exact h2 x p (hleaf _ he) (hz1 _ he) (underscored_iff.mpr hab.symm)
  rw [save_eq hn]
  by_cases hk : ((datasets st (st.paramArray junk m) m names).map Prod.fst).Nodup
  · right
    rw [if_pos hk]
    refine ⟨_, rfl, ⟨fun x p q hx hp hq => ?_, ?_, hk, fun e he => ?_⟩, hkeys.mp hk⟩
    · rw [underscored_iff.mp hq]
      unfold datasets sets
      rw [gather_eq s hm]
      exact List.mem_append_left _ (List.mem_map.mpr ⟨(x, p), hpath x p hx hp, rfl⟩)
    · unfold datasets
      rw [hpa]
      exact List.mem_append_right _ (List.mem_singleton.mpr rfl)
    · unfold datasets sets at he
      rw [gather_eq s hm, hpa] at he
      rcases List.mem_append.mp he with h | h
      · obtain ⟨⟨x, p⟩, hx, rfl⟩ := List.mem_map.mp h
        exact .inr ⟨x, p, under p, hleaf _ hx, hz1 _ hx, underscored_iff.mpr rfl, rfl⟩
      · exact .inl (List.mem_singleton.mp h)
  · left
    rw [if_neg hk]
    exact ⟨rfl, fun h => hk (hkeys.mpr h)⟩

/-- **C89.** `m.save(f)` for an initialised object `m` of any hierarchy: if it returns, the file holds the values of
every `Param` below `m` under its name, the values of all together, and nothing else. Missing for the full claim:
marks left by a call that raised (`save_marks_fails`). -/
theorem save_holds_partial {st : State V} (s : Skel st.g) {m : Id} {junk : List V} {f : File V}
    (hl : st.g.leaf m = false) (hm : st.marks = fun _ => false) (hi : st.inited m = true)
    (h : st.save junk m = .ok f) : Saved st m f := by
  cases hn : st.paramNames m with
  | none => unfold State.save at h; rw [hn] at h; cases h
  | some names =>
    rcases save_cases s junk hl hm hi hn with ⟨h1, -⟩ | ⟨f', h1, h2, -⟩
    · rw [h1] at h; cases h
    · rw [h1] at h; cases h; exact h2

/-- **C89.** With names below `m` that can be printed, `m.save(f)` returns if and only if the names of the `Param`s
stay different with `_` for dots, and none is `param_array`; else it raises `TypeError`. -/
theorem save_returns_iff {st : State V} (s : Skel st.g) {m : Id} (junk : List V) (hl : st.g.leaf m = false)
    (hm : st.marks = fun _ => false) (hi : st.inited m = true)
    (hp : ∀ y, Anc st.g m y → y ≠ m → (adjust (st.name y)).isSome = true) :
    ((∃ f, st.save junk m = .ok f) ↔ Apart st m) ∧ (¬ Apart st m → st.save junk m = .error .typeError) := by
  have hn : (st.paramNames m).isSome = true := namesF_isSome s _ m (fun y hy h => by
    rcases h with h | h
    · exact hp y hy h
    · rw [hl] at h; cases h)
  obtain ⟨names, hn⟩ := Option.isSome_iff_exists.mp hn
  rcases save_cases s junk hl hm hi hn with ⟨h1, h2⟩ | ⟨f, h1, -, h3⟩
  · refine ⟨⟨fun ⟨f, hf⟩ => ?_, fun h => absurd h h2⟩, fun _ => h1⟩
    rw [h1] at hf; cases hf
  · exact ⟨⟨fun _ => h3, fun _ => ⟨f, h1⟩⟩, fun h => absurd h3 h⟩

theorem values_each {v w : Id → List V} : ∀ {ps : List Id}, (∀ p ∈ ps, (v p).length = (w p).length) →
    Concat.values v ps = Concat.values w ps → ∀ p ∈ ps, v p = w p
  | [], _, _, _, h => by cases h
  | q :: ps, hl, h, p, hp => by
    rw [values_cons, values_cons] at h
    obtain ⟨h1, h2⟩ := List.append_inj h (hl q List.mem_cons_self)
    rcases List.mem_cons.mp hp with rfl | hp
    · exact h1
    · exact values_each (fun p hp => hl p (List.mem_cons_of_mem _ hp)) h2 p hp

theorem flattened_congr {st st' : State V} (h : st'.g = st.g) (m : Id) : st'.flattened m = st.flattened m := by
  unfold State.flattened; rw [h]

/-- **C89.** Saving and setting again: the array under `param_array` in a file that `m.save(f)` has written, assigned
with `m2[:] = array` to an initialised object of another hierarchy (`st'`) of the same build, gives every `Param`
below it the values of the corresponding `Param` of `m`, and changes no other. -/
theorem save_load_partial {st st' : State V} (s : Skel st.g) {m : Id} {junk : List V} {f : File V} {l : List V}
    (hl : st.g.leaf m = false) (hm : st.marks = fun _ => false) (hi : st.inited m = true)
    (h : st.save junk m = .ok f) (hf : ("param_array".toList, l) ∈ f)
    (hg : st'.g = st.g) (hi' : st'.inited m = true)
    (hsz : ∀ x, Anc st.g m x → st.g.leaf x = true → (st'.vals x).length = (st.vals x).length) :
    (st'.setWhole m l).2 = none ∧
    (∀ x, Anc st.g m x → st.g.leaf x = true → (st'.setWhole m l).1.vals x = st.vals x) ∧
    ∀ x, ¬ (Anc st.g m x ∧ st.g.leaf x = true) → (st'.setWhole m l).1.vals x = st'.vals x := by
  have hs := save_holds_partial s hl hm hi h
  obtain ⟨hfn, hfm⟩ := flattened_spec (st := st) s m
  have el : l = Concat.values st.vals (st.flattened m) := by
    have := List.inj_on_of_nodup_map hs.keys hf hs.whole rfl
    exact congrArg Prod.snd this
  have hlen : (Concat.values st'.vals (st'.flattened m)).length = l.length := by
    rw [el, flattened_congr hg]
    unfold Concat.values
    rw [List.length_flatMap, List.length_flatMap]
    congr 1
    exact List.map_congr_left fun p hp => hsz p ((hfm p).mp hp).1 ((hfm p).mp hp).2
  have e : st'.setWhole m l = ({ st' with vals := State.spread (st'.flattened m) l st'.vals }, none) := by
    unfold State.setWhole State.assignTo
    simp only [hg, hl, hi', Bool.false_eq_true, if_false, if_true, hlen]
  rw [e]
  obtain ⟨h1, h2⟩ := spread_values (st'.flattened m) l st'.vals (by rw [flattened_congr hg]; exact hfn) hlen.symm
  refine ⟨rfl, fun x hx hxl => ?_, fun x hx => ?_⟩
  · have hx' : x ∈ st'.flattened m := by rw [flattened_congr hg]; exact (hfm x).mpr ⟨hx, hxl⟩
    refine values_each (ps := st'.flattened m) (fun p hp => ?_) (h1.trans (el.trans ?_)) x hx'
    · rw [h2 p hp]
      rw [flattened_congr hg] at hp
      exact hsz p ((hfm p).mp hp).1 ((hfm p).mp hp).2
    · rw [flattened_congr hg]
  · refine spread_other _ _ _ x (fun h => hx ?_)
    rw [flattened_congr hg] at h
    exact (hfm x).mp h

/-- **C89**, for a `Param`: its values under its own printed name, and under `param_array`. -/
theorem save_param {st : State V} (s : Skel st.g) {m : Id} (junk : List V) {a : Name} (hl : st.g.leaf m = true)
    (hm : st.marks = fun _ => false) (ha : adjust (st.name m) = some a) (hne : a ≠ "param_array".toList) :
    st.save junk m = .ok [(a, st.vals m), ("param_array".toList, st.vals m)] := by
  have hu : under a = a := by
    refine (underscored_iff.mp ?_).symm
    have hd := adjust_no_dot ha
    clear ha hne
    induction a with
    | nil => exact .nil
    | cons c a ih =>
      rw [List.mem_cons, not_or] at hd
      exact .cons (.inl ⟨Ne.symm hd.1, rfl⟩) (ih hd.2)
  have hn : st.paramNames m = some [a] := by
    unfold State.paramNames Graph.fuel State.namesF
    rw [if_pos hl, ha]
    rfl
  have hf : st.flattened m = [m] := by
    unfold State.flattened Graph.fuel State.flattenedF
    rw [if_pos hl]
  have hpa : st.paramArray junk m = st.vals m := by
    unfold State.paramArray
    rw [hl, Bool.true_or, if_pos rfl, hf]
    unfold Concat.values
    simp
  rw [save_eq hn]
  have e : datasets st (st.paramArray junk m) m [a] = [(a, st.vals m), ("param_array".toList, st.vals m)] := by
    unfold datasets sets
    rw [gather_eq s hm, hf, hpa]
    simp only [List.zip_cons_cons, List.zip_nil_right, List.map_cons, List.map_nil, hu]
    rfl
  rw [e, if_pos]
  simpa using hne

/-! ### Examples and faults -/

example : demo.save [] 0 = .ok [("a".toList, [10, 11]), ("rbf_variance".toList, [12, 13, 14]),
    ("rbf_length_scale".toList, [15]), ("rbf_sub_a".toList, [18, 19]), ("fixed".toList, [16, 17]),
    ("param_array".toList, [10, 11, 12, 13, 14, 15, 18, 19, 16, 17])] ∧
    demo.save [] 4 = .ok [("length_scale".toList, [15]), ("param_array".toList, [15])] := by decide +kernel

example : Saved demo 0 [("a".toList, [10, 11]), ("rbf_variance".toList, [12, 13, 14]),
    ("rbf_length_scale".toList, [15]), ("rbf_sub_a".toList, [18, 19]), ("fixed".toList, [16, 17]),
    ("param_array".toList, [10, 11, 12, 13, 14, 15, 18, 19, 16, 17])] :=
  save_holds_partial (junk := []) demo_skel (by decide +kernel) rfl rfl (by decide +kernel)

/-- A model built in the same way, with other values. -/
def demoAgain : State Nat := { demo with vals := fun i => (demo.vals i).map (fun _ => 0) }

example : (demoAgain.setWhole 0 [10, 11, 12, 13, 14, 15, 18, 19, 16, 17]).1.vals 7 = [18, 19] ∧ demoAgain.vals 7 = [0, 0] :=
  ⟨(save_load_partial (st' := demoAgain) (junk := []) demo_skel (by decide +kernel) rfl rfl
    (f := [("a".toList, [10, 11]), ("rbf_variance".toList, [12, 13, 14]),
      ("rbf_length_scale".toList, [15]), ("rbf_sub_a".toList, [18, 19]), ("fixed".toList, [16, 17]),
      ("param_array".toList, [10, 11, 12, 13, 14, 15, 18, 19, 16, 17])]) (by decide +kernel) (by decide +kernel) rfl rfl
    (fun x _ _ => List.length_map _)).2.1 7 (demo_skel.mem_subtree.mp (by decide +kernel)) (by decide +kernel),
    by decide +kernel⟩

/-- The parameter `rbf_variance` beside the part `rbf` with a parameter `variance`: two different names, but the
model cannot be saved. -/
def clashing : State Nat := { demo with name := Hier.upd demo.name 1 "rbf_variance".toList }

theorem save_clash_fails : Path clashing.g clashing.name 0 1 "rbf_variance".toList ∧
    Path clashing.g clashing.name 0 3 "rbf.variance".toList ∧ clashing.save [] 0 = .error .typeError :=
  ⟨.child (by decide +kernel) (by decide +kernel),
    .step (p := 2) (s := "rbf".toList) (.child (by decide +kernel) (by decide +kernel)) (by decide +kernel) (by decide +kernel),
    by decide +kernel⟩

/-- A parameter named `param array`. -/
theorem save_whole_clash_fails :
    ({ demo with name := Hier.upd demo.name 1 "param array".toList } : State Nat).save [] 0 = .error .typeError := by
  decide +kernel

/-- A model that is not initialised is saved with whatever is in memory in place of its parameters. -/
theorem save_uninitialised_fails :
    (match ({ demo with inited := fun _ => false } : State Nat).save [7, 7, 7, 7, 7, 7, 7, 7, 7, 7] 0 with
      | .ok f => decide (("param_array".toList, [7, 7, 7, 7, 7, 7, 7, 7, 7, 7]) ∈ f)
      | .error _ => false) = true := by decide +kernel

/-- A name below `rbf` cannot be printed, so that the search `m.rbf['a']` raises; then it is given its old name
again. The marks left by the search make `m.save` skip the parameters of `rbf`, but not their names: the file has
the values of `fixed` under the name of the variance of `rbf`. -/
def marked : State Nat := { (badName.grep (starts "a") 2).1 with name := demo.name }

theorem save_marks_fails : Path marked.g marked.name 0 3 "rbf.variance".toList ∧ marked.vals 3 = [12, 13, 14] ∧
    Path marked.g marked.name 0 5 "fixed".toList ∧ marked.vals 5 = [16, 17] ∧
    marked.save [] 0 = .ok [("a".toList, [10, 11]), ("rbf_variance".toList, [16, 17]),
      ("param_array".toList, [10, 11, 12, 13, 14, 15, 18, 19, 16, 17])] :=
  ⟨.step (p := 2) (s := "rbf".toList) (.child (by decide +kernel) (by decide +kernel)) (by decide +kernel) (by decide +kernel),
    by decide +kernel, .child (by decide +kernel) (by decide +kernel), by decide +kernel, by decide +kernel⟩

end Paramz.Select

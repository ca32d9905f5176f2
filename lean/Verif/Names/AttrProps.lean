import Verif.Names.Attr
import Verif.Names.TreeWitness

/-!
# Parameters as attributes (C88)
-/

namespace Paramz.Names

open Paramz.Select (State Got Broadcast Assigned)

variable {V : Type}

namespace Desk

/-! ### What is needed of a state -/

/-- The names in a state after `p.a = v` are those of the model of names alone. -/
theorem setattr_w (d : Desk V) (p : Id) (a : Name) (t : Thing) (val : Nat → Option (List V)) :
    (d.setattr p a t val).1.w = (d.w.assign p a).1 := by
  unfold setattr World.assign target
  by_cases hb : ∃ x ∈ d.w.kids p, adjust (d.w.name x) = none
  · rw [if_pos hb, if_pos hb]
  · rw [if_neg hb, if_neg hb]
    cases hf : (d.w.kids p).find? (fun x => decide (adjust (d.w.name x) = some a)) with
    | none =>
      rw [if_neg]
      · rfl
      · rintro ⟨x, hx, hn⟩
        have := List.find?_eq_none.mp hf x hx
        simp only [hn, decide_true, not_true_eq_false] at this
    | some x =>
      rw [if_pos ⟨x, List.mem_of_find?_eq_some hf, by simpa using List.find?_some hf⟩]

theorem Reach.world {d : Desk V} (h : Reach d) : World.Reach d.w := by
  induction h with
  | empty _ => exact .empty
  | call _ ha _ _ ih => exact .step ih ha
  | @set d p a t val _ hp _ _ ih =>
    rw [setattr_w]
    exact .step (n := 0) (op := .assign p a) ih hp

theorem assignTo_same {s : State V} {val : Nat → Option (List V)} {got : Got} :
    (s.assignTo val got).1.g = s.g ∧ (s.assignTo val got).1.name = s.name := by
  unfold State.assignTo
  cases got <;> simp only <;> repeat' split
  all_goals exact ⟨rfl, rfl⟩

theorem Reach.agree {d : Desk V} (h : Reach d) : Agree d.w d.s := by
  induction h with
  | empty h => exact h
  | call _ _ _ h _ => exact h
  | @set d p a t val _ hp _ _ ih =>
    unfold setattr
    split
    · exact ih
    · split
      · refine ⟨fun q hq => ?_, fun q hq => ?_, ?_⟩
        · show (d.s.assignTo val _).1.g.kids q = _
          rw [assignTo_same.1]; exact ih.kids q hq
        · show (d.s.assignTo val _).1.name q = _
          rw [assignTo_same.2]; exact ih.name q hq
        · show (d.s.assignTo val _).1.g.Skel
          rw [assignTo_same.1]; exact ih.skel
      · exact ⟨ih.kids, ih.name, ih.skel⟩

/-- The parameter with the printed name `a`, if there is just one. -/
theorem target_eq {d : Desk V} {p x : Id} {a : Name} (hx : x ∈ d.w.kids p) (hn : adjust (d.w.name x) = some a)
    (hu : ∀ y ∈ d.w.kids p, adjust (d.w.name y) = some a → y = x) : d.target p a = some x := by
  unfold target
  cases hf : (d.w.kids p).find? (fun x => decide (adjust (d.w.name x) = some a)) with
  | none =>
    have := List.find?_eq_none.mp hf x hx
    simp only [hn, decide_true, not_true_eq_false] at this
  | some y => rw [hu y (List.mem_of_find?_eq_some hf) (by simpa using List.find?_some hf)]

/-! ### The property -/

/-- After `p.a = v`, with a value that can be spread over the elements of `x` or not: either it has raised and
nothing has changed; or the `Param`s at or below `x` hold the elements of `v` in turn, all other `Param`s keep
their values. In both cases every attribute of every object refers to what it referred to. -/
structure Sets (d : Desk V) (x : Id) (val : Nat → Option (List V)) (r : Desk V × Option SetErr) : Prop where
  done : r.2 = none → Assigned d.s r.1.s val (d.s.flattened x)
  raised : r.2 ≠ none → r.1 = d
  reads : ∀ q b, r.1.read q b = d.read q b
  names : r.1.w = d.w

/-- **C88**, for a parameter `x` of `p` that is the only one with the printed name `a`: `p.a = v` is
`x[:] = v`. -/
theorem parameter_write {d : Desk V} (h : Reach d) {p x : Id} {a : Name} {t : Thing}
    {val : Nat → Option (List V)} (hv : Broadcast val) (hx : x ∈ d.w.kids p) (hn : adjust (d.w.name x) = some a)
    (hu : ∀ y ∈ d.w.kids p, adjust (d.w.name y) = some a → y = x)
    (hb : ∀ y ∈ d.w.kids p, adjust (d.w.name y) ≠ none) : Sets d x val (d.setattr p a t val) := by
  have e : d.setattr p a t val =
      ({ d with s := (d.s.assignTo val (.one x)).1 }, (d.s.assignTo val (.one x)).2.map .value) := by
    unfold setattr
    rw [if_neg (fun ⟨y, hy, hny⟩ => hb y hy hny), target_eq hx hn hu]
  rw [e]
  refine ⟨fun h0 => ?_, fun h0 => ?_, fun q b => rfl, rfl⟩
  · have h1 : (d.s.assignTo val (.one x)).2 = none := by simpa using h0
    exact Select.assignTo_one h.agree.skel hv (Prod.ext rfl h1)
  · have h1 : (d.s.assignTo val (.one x)).2 ≠ none := by simpa using h0
    obtain ⟨er, her⟩ := Option.ne_none_iff_exists'.mp h1
    have h2 : (d.s.assignTo val (.one x)).1 = d.s := Select.assignTo_error (Prod.ext rfl her)
    show ({ d with s := (d.s.assignTo val (.one x)).1 } : Desk V) = d
    rw [h2]

/-- **C88.** If `p.a` refers to a parameter `x`, then `p.a = v` assigns `v` to `x`, changes nothing else, and
`p.a` still refers to `x`: for attributes the library has added, and for those the program has stored as long as
`x` is a parameter of `p` with the printed name `a`. Supposed: no other parameter of `p` has that printed name
(`clash_fails`), and all names can be printed. -/
theorem attribute_write_partial {d : Desk V} (h : Reach d) {p x : Id} {a : Name} {t : Thing}
    {val : Nat → Option (List V)} (hv : Broadcast val) (hr : d.read p a = some (.param x))
    (hd : d.dict p a = none ∨ (x ∈ d.w.kids p ∧ adjust (d.w.name x) = some a))
    (hu : ∀ y ∈ d.w.kids p, adjust (d.w.name y) = some a → y = x)
    (hb : ∀ y ∈ d.w.kids p, adjust (d.w.name y) ≠ none) :
    Sets d x val (d.setattr p a t val) ∧ (d.setattr p a t val).1.read p a = some (.param x) := by
  have hk : x ∈ d.w.kids p ∧ adjust (d.w.name x) = some a := by
    rcases hd with hd | hk
    · unfold read at hr
      rw [hd] at hr
      simp only at hr
      split at hr
      · cases hr
      · cases ha : d.w.attrs p a with
        | none => rw [ha] at hr; cases hr
        | some z =>
          rw [ha] at hr
          cases hr
          obtain ⟨h1, h2, _⟩ := World.attributes_are_parameters_partial h.world ha
          exact ⟨h1, h2⟩
    · exact hk
  have hs := parameter_write (t := t) h hv hk.1 hk.2 hu hb
  exact ⟨hs, (hs.reads p a).trans hr⟩

/-- **C88.** Every parameter of an object that is in order (C83) is read under its printed name, unless the object
has an attribute of its own or another parameter with that printed name. -/
theorem attribute_read {d : Desk V} {p x : Id} {a : Name} (hp : World.Neat d.w p) (hx : x ∈ d.w.kids p)
    (hn : adjust (d.w.name x) = some a) (ho : d.w.own p a = false) (hd : d.dict p a = none)
    (hu : ∀ y ∈ d.w.kids p, adjust (d.w.name y) = some a → y = x) : d.read p a = some (.param x) := by
  obtain ⟨n, h1, h2⟩ := hp.found x hx
  obtain rfl : n = a := Option.some.inj (h1.symm.trans hn)
  unfold read
  rw [hd, ho]
  simp only [Bool.false_eq_true, if_false]
  rw [h2 ho hu]
  rfl

/-- **C88.** If no parameter of `p` has the printed name `a`, then `p.a = v` is an ordinary attribute: it changes
no value and no parameter, `p.a` is `v` afterwards, and no other attribute changes. In particular a parameter that
is only stored does not become a parameter of `p`. -/
theorem attribute_plain {d : Desk V} {p : Id} {a : Name} {t : Thing} {val : Nat → Option (List V)}
    (hn : ∀ y ∈ d.w.kids p, adjust (d.w.name y) ≠ some a) (hb : ∀ y ∈ d.w.kids p, adjust (d.w.name y) ≠ none) :
    (d.setattr p a t val).2 = none ∧ (d.setattr p a t val).1.s = d.s ∧
    (d.setattr p a t val).1.w.kids = d.w.kids ∧ (d.setattr p a t val).1.w.name = d.w.name ∧
    (d.setattr p a t val).1.read p a = some t ∧
    ∀ q b, ¬(q = p ∧ b = a) → (d.setattr p a t val).1.read q b = d.read q b := by
  have e : d.setattr p a t val = (d.store p a t, none) := by
    unfold setattr
    rw [if_neg (fun ⟨y, hy, hny⟩ => hb y hy hny)]
    have : d.target p a = none := by
      unfold target
      rw [List.find?_eq_none]
      intro y hy
      simp only [decide_eq_true_eq]
      exact hn y hy
    rw [this]
  rw [e]
  refine ⟨rfl, rfl, rfl, rfl, ?_, fun q b hq => ?_⟩
  · unfold read store
    simp only [and_self, if_true]
  · unfold read store World.setOwn
    simp only [if_neg hq]
    have ho : Names.upd d.w.own p (fun m => if m = a then true else d.w.own p m) q b = d.w.own q b := by
      unfold Names.upd
      split
      · rename_i hqp
        subst hqp
        exact if_neg (fun hb => hq ⟨rfl, hb⟩)
      · rfl
    rw [ho]

theorem Later.dict {d d' : Desk V} {p : Id} {a : Name} (h : Later p a d d') : d'.dict p a = d.dict p a := by
  induction h with
  | refl => rfl
  | call _ _ _ _ ih => exact ih
  | @set d' q b t val _ _ _ _ hne ih =>
    rw [← ih]
    unfold setattr
    split
    · rfl
    · split
      · rfl
      · unfold store
        simp only
        rw [if_neg (fun ⟨h1, h2⟩ => hne ⟨h1.symm, h2.symm⟩)]

theorem Later.reach {d d' : Desk V} {p : Id} {a : Name} (h : Later p a d d') (hr : Reach d) : Reach d' := by
  induction h with
  | refl => exact hr
  | call _ h1 h2 h3 ih => exact .call ih h1 h2 h3
  | set _ h1 h2 h3 _ ih => exact .set ih h1 h2 h3

/-- **C88**, for `self.a = x; self.link_parameter(x)` as in a constructor: after `p.a = x` with a parameter object
`x`, when `a` was not the printed name of a parameter, and after any further calls, `p.a` is `x`; and whenever `x`
is then a parameter of `p` with the printed name `a` (and the only one), `p.a = v` assigns `v` to `x`, and `p.a`
stays `x`. -/
theorem stored_parameter_partial {d d' : Desk V} (h : Reach d) {p x : Id} {a : Name}
    {val val' : Nat → Option (List V)} {t : Thing} (hp : p < d.w.next) (hv : Broadcast val) (hv' : Broadcast val')
    (hn : ∀ y ∈ d.w.kids p, adjust (d.w.name y) ≠ some a) (hb : ∀ y ∈ d.w.kids p, adjust (d.w.name y) ≠ none)
    (ho : d.w.own p a = true → d.dict p a ≠ none) (hl : Later p a (d.setattr p a (.param x) val).1 d') :
    d'.read p a = some (.param x) ∧
    (x ∈ d'.w.kids p → adjust (d'.w.name x) = some a →
      (∀ y ∈ d'.w.kids p, adjust (d'.w.name y) = some a → y = x) →
      (∀ y ∈ d'.w.kids p, adjust (d'.w.name y) ≠ none) →
      Sets d' x val' (d'.setattr p a t val') ∧ (d'.setattr p a t val').1.read p a = some (.param x)) := by
  have h1 : Reach (d.setattr p a (.param x) val).1 := .set h hp hv (fun h2 => .inl (ho h2))
  have hd : (d.setattr p a (.param x) val).1.dict p a = some (.param x) := by
    unfold setattr
    rw [if_neg (fun ⟨y, hy, hny⟩ => hb y hy hny)]
    have : d.target p a = none := by
      unfold target
      rw [List.find?_eq_none]
      intro y hy
      simp only [decide_eq_true_eq]
      exact hn y hy
    rw [this]
    unfold store
    simp only [and_self, if_true]
  have hr : d'.read p a = some (.param x) := by
    unfold read
    rw [hl.dict, hd]
  exact ⟨hr, fun hx hnx hu hbx => attribute_write_partial (hl.reach h1) hv' hr (.inr ⟨hx, hnx⟩) hu hbx⟩

/-! ### Examples and faults -/

/-- A root (0) with parameters `K`, all of one level. -/
def star (n : Nat) (K : List Id) : Hier.Graph where
  next := n
  leaf := fun x => decide (x ≠ 0)
  parent := fun c => if c ∈ K then some 0 else none
  pidx := fun c => K.idxOf c
  kids := fun p => if p = 0 then K else []
  size := fun _ => 1

theorem star_skel {n : Nat} {K : List Id} (hK : K.Nodup) (h0 : 0 ∉ K) (hn : ∀ x ∈ K, x < n) (hpos : 0 < n) :
    (star n K).Skel where
  alloc := by
    intro c p h
    unfold star at h
    simp only at h
    split at h
    · cases h
      rename_i hc
      exact ⟨hn c hc, hpos⟩
    · cases h
  mem_iff := by
    intro c p
    show c ∈ (if p = 0 then K else []) ↔ (if c ∈ K then some 0 else none) = some p
    by_cases hp : p = 0
    · subst hp
      by_cases hc : c ∈ K <;> simp [hc]
    · by_cases hc : c ∈ K
      · simp [hc, hp, Ne.symm hp]
      · simp [hc, hp]
  nodup := by
    intro p
    show (if p = 0 then K else []).Nodup
    split
    · exact hK
    · exact List.nodup_nil
  pidx := by
    intro p i c h
    have h : (if p = 0 then K else [])[i]? = some c := h
    split at h
    · obtain ⟨hi, he⟩ := List.getElem?_eq_some_iff.mp h
      show K.idxOf c = i
      rw [← he]
      exact hK.idxOf_getElem i hi
    · simp at h
  leaf := by
    intro x h
    have : x ≠ 0 := of_decide_eq_true h
    exact if_neg this
  acyclic := by
    refine ⟨fun x => if x = 0 then 0 else 1, fun c p h => ?_⟩
    have h : (if c ∈ K then some 0 else none) = some p := h
    split at h
    · cases h
      rename_i hc
      have : c ≠ 0 := fun e => h0 (e ▸ hc)
      simp [this]
    · cases h

private def nm (s : String) : Name := s.toList

private def param (s : String) : Op := .create true (nm s) (fun _ => false)

private def part (s : String) : Op := .create false (nm s) (fun _ => false)

/-- Values of a star: the `Param` `i` holds `i` twice. -/
def starState (w : World) (K : List Id) : State Nat :=
  ⟨star (w.next + 1) K, w.name, fun _ => true, fun _ => false, fun i => if i = 0 then [] else [i, i]⟩

theorem starState_agree {w : World} {K : List Id} (hK : K.Nodup) (h0 : 0 ∉ K) (hn : ∀ x ∈ K, x < w.next + 1)
    (hk : ∀ p, p < w.next → (if p = 0 then K else []) = w.kids p) : Agree w (starState w K) :=
  ⟨hk, fun _ _ => rfl, star_skel hK h0 hn (Nat.succ_pos _)⟩

/-- A number is spread over all elements. -/
def spreadAll (c : Nat) (n : Nat) : Option (List Nat) := some (List.replicate n c)

theorem spreadAll_broadcast (c : Nat) : Broadcast (spreadAll c) := by
  intro n l h
  cases h
  exact List.length_replicate

def notAssign : Op → Bool
  | .assign _ _ => false
  | _ => true

/-- The parameters of the root after each call. -/
def shapes : World → List (Op × List Id) → Bool
  | _, [] => true
  | w, (op, K) :: r => w.okAdm op && (notAssign op && (decide K.Nodup && (decide (0 ∉ K) &&
      (decide (∀ x ∈ K, x < (w.exec 9 op).1.next + 1) &&
      (decide (∀ p, p < (w.exec 9 op).1.next → (if p = 0 then K else []) = (w.exec 9 op).1.kids p) &&
      shapes (w.exec 9 op).1 r)))))

def start (l : List (Op × List Id)) (d : Desk Nat) : Desk Nat :=
  l.foldl (fun d o => ⟨(d.w.exec 9 o.1).1, starState (d.w.exec 9 o.1).1 o.2, d.dict⟩) d

theorem start_later {p : Id} {a : Name} {d0 : Desk Nat} : ∀ {l : List (Op × List Id)} {d : Desk Nat},
    Later p a d0 d → shapes d.w l = true → Later p a d0 (start l d)
  | [], _, h, _ => h
  | (op, K) :: r, d, h, hs => by
    unfold shapes at hs
    simp only [Bool.and_eq_true, decide_eq_true_eq] at hs
    obtain ⟨h1, h2, h3, h4, h5, h6, h7⟩ := hs
    refine start_later (l := r) (d := ⟨(d.w.exec 9 op).1, starState (d.w.exec 9 op).1 K, d.dict⟩)
      (.call h (World.okAdm_sound h1) ?_ (starState_agree h3 h4 h5 h6)) h7
    rintro p a rfl
    cases h2

theorem start_reach {l : List (Op × List Id)} {d : Desk Nat} (h : Reach d) (hs : shapes d.w l = true) :
    Reach (start l d) := (start_later (p := 0) (a := []) .refl hs).reach h

/-- The beginning. -/
def none' : Desk Nat := ⟨World.empty, starState World.empty [], fun _ _ => none⟩

theorem none_reach : Reach none' := .empty (starState_agree (by decide) (by decide) (by decide) (by decide))

/-- A model `m` (0) with `a b` (1) and, put in front of it, `a_b` (2). -/
def clash : Desk Nat :=
  start [(part "m", []), (.finish 0 true, []), (param "a b", []), (.link 0 1 none, [1]), (param "a_b", [1]),
    (.link 0 2 (some 0), [2, 1])] none'

theorem clash_reach : Reach clash := start_reach none_reach (by decide +kernel)

/-- `m.a_b` is one parameter, `m.a_b = 9` assigns another: the attribute refers to the parameter that was linked
first, the assignment goes to the first in the list. -/
theorem clash_fails : Reach clash ∧ clash.read 0 (nm "a_b") = some (.param 1) ∧
    (clash.setattr 0 (nm "a_b") (.other 9) (spreadAll 9)).2 = none ∧
    (clash.setattr 0 (nm "a_b") (.other 9) (spreadAll 9)).1.s.vals 1 = clash.s.vals 1 ∧
    clash.s.vals 2 = [2, 2] ∧
    (clash.setattr 0 (nm "a_b") (.other 9) (spreadAll 9)).1.s.vals 2 = [9, 9] :=
  ⟨clash_reach, by decide +kernel, by decide +kernel, by decide +kernel, by decide +kernel, by decide +kernel⟩

/-- In the constructor of a model (0): `self.a = x` for a new parameter `a` (1). -/
def storing : Desk Nat := start [(part "m", []), (param "a", [])] none'

theorem storing_reach : Reach storing := start_reach none_reach (by decide +kernel)

def stored : Desk Nat := (storing.setattr 0 (nm "a") (.param 1) (spreadAll 1)).1

theorem stored_reach : Reach stored :=
  .set storing_reach (by decide +kernel) (spreadAll_broadcast 1) (by decide +kernel)

/-- Then `self.link_parameter(x)` and the end of the constructor; a further parameter `c` (2). -/
def linked : Desk Nat :=
  start [(.link 0 1 none, [1]), (.finish 0 true, [1]), (param "c", [1]), (.link 0 2 none, [1, 2])] stored

theorem linked_later : Later 0 (nm "a") stored linked := start_later .refl (by decide +kernel)

/-- `stored_parameter_partial` and `attribute_write_partial` apply. -/
example : linked.read 0 (nm "a") = some (.param 1) ∧ linked.read 0 (nm "c") = some (.param 2) ∧
    Sets linked 1 (spreadAll 7) (linked.setattr 0 (nm "a") (.other 7) (spreadAll 7)) ∧
    Sets linked 2 (spreadAll 8) (linked.setattr 0 (nm "c") (.other 8) (spreadAll 8)) ∧
    (linked.setattr 0 (nm "a") (.other 7) (spreadAll 7)).1.s.vals 1 = [7, 7] ∧
    (linked.setattr 0 (nm "a") (.other 7) (spreadAll 7)).1.s.vals 2 = [2, 2] := by
  have h1 := stored_parameter_partial (x := 1) (t := .other 7) storing_reach (by decide +kernel)
    (spreadAll_broadcast 1) (spreadAll_broadcast 7) (by decide +kernel) (by decide +kernel) (by decide +kernel)
    linked_later
  have h2 : linked.read 0 (nm "c") = some (.param 2) := by decide +kernel
  exact ⟨h1.1, h2, (h1.2 (by decide +kernel) (by decide +kernel) (by decide +kernel) (by decide +kernel)).1,
    (attribute_write_partial (linked_later.reach stored_reach) (spreadAll_broadcast 8) h2 (.inl (by decide +kernel))
      (by decide +kernel) (by decide +kernel)).1, by decide +kernel, by decide +kernel⟩

/-- `attribute_plain` applies: `m.z = 5`. -/
example : (linked.setattr 0 (nm "z") (.other 5) (spreadAll 5)).1.read 0 (nm "z") = some (.other 5) :=
  (attribute_plain (d := linked) (by decide +kernel) (by decide +kernel)).2.2.2.2.1

/-- After `x.name = 'b'`, `m.a` still is the parameter `x` of `m`; but `m.a = 9` leaves `x` alone, and afterwards
`m.a` is the number. -/
def renamed : Desk Nat := start [(.rename 1 (nm "b"), [1, 2])] linked

theorem renamed_fails : Reach renamed ∧ renamed.read 0 (nm "a") = some (.param 1) ∧ 1 ∈ renamed.w.kids 0 ∧
    (renamed.setattr 0 (nm "a") (.other 9) (spreadAll 9)).2 = none ∧
    (renamed.setattr 0 (nm "a") (.other 9) (spreadAll 9)).1.s.vals 1 = renamed.s.vals 1 ∧
    renamed.s.vals 1 = [1, 1] ∧
    (renamed.setattr 0 (nm "a") (.other 9) (spreadAll 9)).1.read 0 (nm "a") = some (.other 9) :=
  ⟨start_reach (linked_later.reach stored_reach) (by decide +kernel), by decide +kernel, by decide +kernel,
    by decide +kernel, by decide +kernel, by decide +kernel, by decide +kernel⟩

/-- `m.a = 5` for a model (0) without parameters; then a parameter `a` (1) is linked. -/
def hidden : Desk Nat :=
  start [(param "a", []), (.link 0 1 none, [1])]
    ((start [(part "m", []), (.finish 0 true, [])] none').setattr 0 (nm "a") (.other 5) (spreadAll 5)).1

theorem hidden_reach : Reach hidden :=
  start_reach (.set (start_reach none_reach (by decide +kernel)) (by decide +kernel) (spreadAll_broadcast 5)
    (by decide +kernel)) (by decide +kernel)

/-- Assigning to the attribute `m.a`, which is the number 5, does not change the attribute: the value goes to the
parameter, and `m.a` stays 5. -/
theorem hidden_fails : Reach hidden ∧ hidden.read 0 (nm "a") = some (.other 5) ∧
    (hidden.setattr 0 (nm "a") (.other 9) (spreadAll 9)).2 = none ∧
    (hidden.setattr 0 (nm "a") (.other 9) (spreadAll 9)).1.read 0 (nm "a") = some (.other 5) ∧
    hidden.s.vals 1 = [1, 1] ∧ (hidden.setattr 0 (nm "a") (.other 9) (spreadAll 9)).1.s.vals 1 = [9, 9] :=
  ⟨hidden_reach, by decide +kernel, by decide +kernel, by decide +kernel, by decide +kernel, by decide +kernel⟩

end Desk

end Paramz.Names

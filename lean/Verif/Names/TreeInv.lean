import Verif.Names.TreeLemmas

/-!
# What holds after all calls, for names in whole hierarchies
-/

namespace Paramz.Names

theorem andThen_ind {σ ε : Type} {P : σ → Prop} {r : σ × Option ε} {f : σ → σ × Option ε} (h1 : P r.1)
    (h2 : ∀ s, r = (s, none) → P (f s).1) : P (andThen r f).1 := by
  obtain ⟨s, _ | e⟩ := r
  · exact h2 s rfl
  · exact h1

theorem andThen_ok {σ ε : Type} {r : σ × Option ε} {f : σ → σ × Option ε} {s' : σ}
    (h : andThen r f = (s', none)) : ∃ s, r = (s, none) ∧ f s = (s', none) := by
  obtain ⟨s, _ | e⟩ := r
  · exact ⟨s, rfl, h⟩
  · cases h

namespace World

/-- Attributes added by the library are parameters under their printed names, lists and parents agree as far as
needed, and names have no line break. -/
structure Inv (w : World) : Prop where
  sound : ∀ p, (w.fam p).Sound
  apart : ∀ p n, (w.attrs p n).isSome = true → w.own p n = false
  nodup : ∀ p, (w.kids p).Nodup
  par : ∀ x p, x ∈ w.kids p → w.parent x = some p
  nl : ∀ x, '\n' ∉ w.name x
  old : ∀ x p, x ∈ w.kids p → x < w.next

/-- Only the names of the parameters of `p`, and the attributes of `p`, have changed (and what is initialised). -/
structure Fix (w w' : World) (p : Id) : Prop where
  kids : w'.kids = w.kids
  parent : w'.parent = w.parent
  own : w'.own = w.own
  building : w'.building = w.building
  next : w'.next = w.next
  inited : ∀ y, w.inited y = true → w'.inited y = true
  attrs : ∀ p', p' ≠ p → w'.attrs p' = w.attrs p'
  name : ∀ y, y ∉ w.kids p → w'.name y = w.name y
  sound : (w.fam p).Sound → (w'.fam p).Sound
  apart : (∀ n, (w.attrs p n).isSome = true → w.own p n = false) →
    ∀ n, (w'.attrs p n).isSome = true → w'.own p n = false
  nl : (∀ y, '\n' ∉ w.name y) → ∀ y, '\n' ∉ w'.name y

theorem fam_put (w : World) {p : Id} {f : Fam} (hk : f.kids = w.kids p) (ho : f.own = w.own p) :
    (w.put p f).fam p = f := by
  obtain ⟨k, nm, a, o⟩ := f
  obtain rfl : k = w.kids p := hk
  obtain rfl : o = w.own p := ho
  show (⟨w.kids p, nm, upd w.attrs p a p, w.own p⟩ : Fam) = _
  rw [upd_same]

/-- What is done with the names of one object concerns only this object. -/
theorem fix_put {w : World} {p : Id} {f : Fam} (k : Keeps (w.fam p) f) : Fix w (w.put p f) p where
  kids := rfl
  parent := rfl
  own := rfl
  building := rfl
  next := rfl
  inited := fun _ h => h
  attrs := fun p' hp => upd_ne hp
  name := fun y hy => k.outside y hy
  sound := fun h => by
    rw [fam_put w k.kids k.own]; exact k.sound h
  apart := fun h n hn => by
    have hn : (upd w.attrs p f.attrs p n).isSome = true := hn
    rw [upd_same] at hn
    have := k.apart h n hn
    rw [k.own] at this
    exact this
  nl := fun h => k.nl h

theorem fix_mark (w : World) (p q : Id) : Fix w (w.mark q) p where
  kids := rfl
  parent := rfl
  own := rfl
  building := rfl
  next := rfl
  inited := fun y hy => by
    show (w.inited y || _ || _) = true
    rw [hy]; simp
  attrs := fun _ _ => rfl
  name := fun _ _ => rfl
  sound := fun h => h
  apart := fun h => h
  nl := fun h => h

theorem Fix.trans {w w' w'' : World} {p : Id} (a : Fix w w' p) (b : Fix w' w'' p) : Fix w w'' p where
  kids := b.kids.trans a.kids
  parent := b.parent.trans a.parent
  own := b.own.trans a.own
  building := b.building.trans a.building
  next := b.next.trans a.next
  inited := fun y h => b.inited y (a.inited y h)
  attrs := fun p' h => (b.attrs p' h).trans (a.attrs p' h)
  name := fun y h => (b.name y (by rw [a.kids]; exact h)).trans (a.name y h)
  sound := fun h => b.sound (a.sound h)
  apart := fun h => b.apart (a.apart h)
  nl := fun h => b.nl (a.nl h)

theorem connect_fix (n : Nat) (w : World) (p : Id) : Fix w (w.connect n p).1 p := by
  refine (fix_mark w p p).trans ?_
  exact fix_put (w := w.mark p) (run_keeps n (w.fam p) none (fun x hx => by cases hx))

theorem addName_fix (n : Nat) (w : World) {p x : Id} (hx : x ∈ w.kids p) : Fix w (w.addName n p x).1 p :=
  fix_put (run_keeps n (w.fam p) (some x) (fun y hy => by cases hy; exact hx))

theorem keeps_delAttr (s : Fam) (a : Name) : Keeps s (s.delAttr a) where
  kids := rfl
  own := rfl
  outside := fun _ _ => rfl
  sound := fun h m z hz => by
    have hz : (if m = a then none else s.attrs m) = some z := hz
    split at hz
    · cases hz
    · exact h m z hz
  bad := fun _ _ => rfl
  nl := fun h => h
  apart := fun h m hm => by
    have hm : (if m = a then none else s.attrs m).isSome = true := hm
    split at hm
    · cases hm
    · exact h m hm

theorem delAttr_fix (w : World) (p : Id) (a : Name) : Fix w (w.put p ((w.fam p).delAttr a)) p :=
  fix_put (keeps_delAttr _ a)

theorem Inv.fix {w w' : World} {p : Id} (i : Inv w) (f : Fix w w' p) : Inv w' where
  sound := fun p' => by
    by_cases h : p' = p
    · rw [h]; exact f.sound (i.sound p)
    · intro m z hz
      have hz : w'.attrs p' m = some z := hz
      rw [f.attrs p' h] at hz
      obtain ⟨h1, h2⟩ := i.sound p' m z hz
      have h1 : z ∈ w.kids p' := h1
      have hzp : z ∉ w.kids p := fun h' => by
        have e1 := i.par z p h'
        rw [i.par z p' h1] at e1
        exact h (Option.some.inj e1)
      refine ⟨?_, ?_⟩
      · show z ∈ w'.kids p'
        rw [f.kids]; exact h1
      · show adjust (w'.name z) = some m
        rw [f.name z hzp]; exact h2
  apart := fun p' n hn => by
    by_cases h : p' = p
    · rw [h] at hn ⊢; exact f.apart (i.apart p) n hn
    · rw [f.attrs p' h] at hn
      rw [f.own]; exact i.apart p' n hn
  nodup := fun p' => by rw [f.kids]; exact i.nodup p'
  par := fun x p' h => by rw [f.kids] at h; rw [f.parent]; exact i.par x p' h
  nl := f.nl i.nl
  old := fun x p' h => by rw [f.kids] at h; rw [f.next]; exact i.old x p' h

theorem connectTop_fix (n : Nat) (w : World) (x : Id) :
    ∃ r, Fix w (w.connectTop n x).1 r := by
  unfold connectTop
  cases w.highest n x with
  | none => exact ⟨x, fix_put (w := w) (Keeps.refl (w.fam x)) |>.trans (by
      have : (w.put x (w.fam x)) = w := by
        show { w with name := w.name, attrs := upd w.attrs x (w.attrs x) } = w
        have : upd w.attrs x (w.attrs x) = w.attrs := by
          funext y; unfold upd; split
          · rename_i h; rw [h]
          · rfl
        rw [this]
      rw [this]
      have h2 := fix_put (w := w) (Keeps.refl (w.fam x))
      rw [this] at h2; exact h2)⟩
  | some r => exact ⟨r, connect_fix n w r⟩

theorem Inv.connectTop {w : World} (i : Inv w) (n : Nat) (x : Id) : Inv (w.connectTop n x).1 := by
  obtain ⟨r, f⟩ := connectTop_fix n w x
  exact i.fix f

theorem Inv.not_kid {w : World} (i : Inv w) {x p p' : Id} (h : x ∈ w.kids p) (hne : p' ≠ p) : x ∉ w.kids p' :=
  fun h' => by
    have e1 := i.par x p h
    rw [i.par x p' h'] at e1
    exact hne (Option.some.inj e1)

theorem Inv.orphan {w : World} (i : Inv w) {x : Id} (h : w.parent x = none) (p : Id) : x ∉ w.kids p :=
  fun h' => by rw [i.par x p h'] at h; cases h

/-- Taking `x` out of the list together with its attribute. -/
theorem Inv.takeOut {w : World} (i : Inv w) {p x : Id} (f : Fam)
    (hf : f = ({ w.fam p with kids := (w.kids p).erase x } : Fam) ∧ adjust (w.name x) = none ∨
      ∃ a, adjust (w.name x) = some a ∧ f = ({ w.fam p with kids := (w.kids p).erase x } : Fam).delAttr a) :
    Inv ((w.setKids p ((w.kids p).erase x)).put p f) := by
  have hname : f.name = w.name := by
    rcases hf with ⟨rfl, -⟩ | ⟨a, -, rfl⟩ <;> rfl
  have hattr : ∀ m z, f.attrs m = some z → w.attrs p m = some z ∧ z ≠ x := by
    intro m z hz
    rcases hf with ⟨rfl, hn⟩ | ⟨a, ha, rfl⟩
    · have hz : w.attrs p m = some z := hz
      refine ⟨hz, fun e => ?_⟩
      have := (i.sound p m z hz).2
      rw [e] at this
      have this : adjust (w.name x) = some m := this
      rw [hn] at this; cases this
    · have hz : (if m = a then none else w.attrs p m) = some z := hz
      split at hz
      · cases hz
      · rename_i hma
        refine ⟨hz, fun e => ?_⟩
        have := (i.sound p m z hz).2
        rw [e] at this
        have this : adjust (w.name x) = some m := this
        rw [ha] at this
        exact hma (Option.some.inj this).symm
  have hsub : ∀ y p', y ∈ upd w.kids p ((w.kids p).erase x) p' → y ∈ w.kids p' := by
    intro y p' hy
    by_cases h : p' = p
    · rw [h, upd_same] at hy; rw [h]; exact List.mem_of_mem_erase hy
    · rwa [upd_ne h] at hy
  refine ⟨fun p' => ?_, fun p' n hn => ?_, fun p' => ?_, fun y p' hy => ?_, fun y => ?_, fun y p' hy => ?_⟩
  · intro m z hz
    have hz : upd w.attrs p f.attrs p' m = some z := hz
    show z ∈ upd w.kids p ((w.kids p).erase x) p' ∧ adjust (f.name z) = some m
    rw [hname]
    by_cases h : p' = p
    · rw [h, upd_same] at hz
      rw [h, upd_same]
      obtain ⟨h1, h2⟩ := hattr m z hz
      exact ⟨(List.mem_erase_of_ne h2).mpr (i.sound p m z h1).1, (i.sound p m z h1).2⟩
    · rw [upd_ne h] at hz
      rw [upd_ne h]
      exact i.sound p' m z hz
  · have hn : (upd w.attrs p f.attrs p' n).isSome = true := hn
    show w.own p' n = false
    by_cases h : p' = p
    · rw [h, upd_same] at hn
      obtain ⟨z, hz⟩ := Option.isSome_iff_exists.mp hn
      rw [h]
      exact i.apart p n (by rw [(hattr n z hz).1]; rfl)
    · rw [upd_ne h] at hn
      exact i.apart p' n hn
  · show (upd w.kids p ((w.kids p).erase x) p').Nodup
    by_cases h : p' = p
    · rw [h, upd_same]; exact (i.nodup p).erase x
    · rw [upd_ne h]; exact i.nodup p'
  · exact i.par y p' (hsub y p' hy)
  · show '\n' ∉ f.name y
    rw [hname]; exact i.nl y
  · exact i.old y p' (hsub y p' hy)

theorem setKids_put (w : World) (p : Id) (l : List Id) :
    (w.setKids p l).put p { w.fam p with kids := l } = w.setKids p l := by
  show ({ (w.setKids p l) with name := w.name, attrs := upd w.attrs p (w.attrs p) } : World) = _
  have : upd w.attrs p (w.attrs p) = w.attrs := by
    funext y; unfold upd; split
    · rename_i h; rw [h]
    · rfl
  rw [this]; rfl

theorem fam_setKids (w : World) (p : Id) (l : List Id) : (w.setKids p l).fam p = { w.fam p with kids := l } := by
  show (⟨upd w.kids p l p, w.name, w.attrs p, w.own p⟩ : Fam) = _
  rw [upd_same]; rfl

/-- `_remove_parameter_name` of `x` after `x` has been taken out of the list. -/
theorem Inv.remove {w : World} (i : Inv w) (n : Nat) (p x : Id) :
    Inv ((w.setKids p ((w.kids p).erase x)).removeName n p (w.name x)).1 := by
  unfold removeName
  cases ha : adjust (w.name x) with
  | none =>
    have := i.takeOut (p := p) (x := x) _ (.inl ⟨rfl, ha⟩)
    rw [setKids_put] at this
    exact this
  | some a =>
    simp only
    rw [fam_setKids]
    exact (i.takeOut (p := p) (x := x) _ (.inr ⟨a, ha, rfl⟩)).fix (connect_fix n _ p)

theorem removeName_same (n : Nat) (w : World) (p : Id) (a : Name) :
    (w.removeName n p a).1.kids = w.kids ∧ (w.removeName n p a).1.parent = w.parent ∧
    (w.removeName n p a).1.building = w.building ∧ (w.removeName n p a).1.next = w.next ∧
    (w.removeName n p a).1.own = w.own ∧
    (∀ y, w.inited y = true → (w.removeName n p a).1.inited y = true) ∧
    (∀ p', p' ≠ p → (w.removeName n p a).1.attrs p' = w.attrs p') ∧
    (∀ y, y ∉ w.kids p → (w.removeName n p a).1.name y = w.name y) := by
  unfold removeName
  cases adjust a with
  | none => exact ⟨rfl, rfl, rfl, rfl, rfl, fun _ h => h, fun _ _ => rfl, fun _ _ => rfl⟩
  | some b =>
    have f := (delAttr_fix w p b).trans (connect_fix n (w.put p ((w.fam p).delAttr b)) p)
    exact ⟨f.kids, f.parent, f.building, f.next, f.own, f.inited, f.attrs, f.name⟩

theorem Inv.orphaned {w : World} (i : Inv w) {x : Id} (h : ∀ p, x ∉ w.kids p) : Inv (w.setParent x none) :=
  ⟨i.sound, i.apart, i.nodup, fun y p hy => by
    show upd w.parent x none y = some p
    rw [upd_ne (fun e => h p (by rw [← e]; exact hy))]; exact i.par y p hy, i.nl, i.old⟩

theorem Inv.unlink {w : World} (i : Inv w) (n : Nat) (p x : Id) : Inv (w.unlink n p x).1 := by
  unfold World.unlink
  split
  · rename_i hx
    have i2 := i.remove n p x
    have s2 := removeName_same n (w.setKids p ((w.kids p).erase x)) p (w.name x)
    refine andThen_ind i2 (fun w2 h2 => ?_)
    rw [h2] at i2 s2
    have hk : w2.kids = upd w.kids p ((w.kids p).erase x) := s2.1
    have i3 : Inv (w2.setParent x none) := by
      refine i2.orphaned (fun p' h' => ?_)
      have h' : x ∈ w2.kids p' := h'
      rw [hk] at h'
      by_cases h : p' = p
      · rw [h, upd_same] at h'
        exact (List.Nodup.not_mem_erase (i.nodup p)) h'
      · rw [upd_ne h] at h'
        exact i.not_kid hx h h'
    have i4 := i3.fix (connect_fix n _ p)
    refine andThen_ind i4 (fun w3 h3 => ?_)
    rw [h3] at i4
    exact Inv.connectTop i4 n p
  · exact i

theorem mem_insert {l : List Id} {k : Nat} {x y : Id} : y ∈ l.take k ++ x :: l.drop k ↔ y = x ∨ y ∈ l := by
  rw [List.mem_append, List.mem_cons]
  conv_rhs => rw [← List.take_append_drop k l, List.mem_append]
  tauto

theorem Inv.added {w : World} (i : Inv w) {p x : Id} (hx : w.parent x = none) (hlt : x < w.next) (k : Nat) :
    Inv ((w.setKids p ((w.kids p).take k ++ x :: (w.kids p).drop k)).setParent x (some p)) := by
  have hmem : ∀ y p', y ∈ upd w.kids p ((w.kids p).take k ++ x :: (w.kids p).drop k) p' ↔
      (p' = p ∧ y = x) ∨ y ∈ w.kids p' := by
    intro y p'
    by_cases h : p' = p
    · rw [h, upd_same, mem_insert]; simp
    · rw [upd_ne h]; simp [h]
  refine ⟨fun p' m z hz => ?_, i.apart, fun p' => ?_, fun y p' hy => ?_, i.nl, fun y p' hy => ?_⟩
  · obtain ⟨h1, h2⟩ := i.sound p' m z hz
    exact ⟨(hmem z p').mpr (.inr h1), h2⟩
  · show (upd w.kids p _ p').Nodup
    by_cases h : p' = p
    · rw [h, upd_same, List.nodup_middle, List.nodup_cons, List.take_append_drop]
      exact ⟨i.orphan hx p, i.nodup p⟩
    · rw [upd_ne h]; exact i.nodup p'
  · show upd w.parent x (some p) y = some p'
    rcases (hmem y p').mp hy with ⟨h1, h2⟩ | h1
    · rw [h2, upd_same, h1]
    · rw [upd_ne (fun e => i.orphan hx p' (by rw [← e]; exact h1))]; exact i.par y p' h1
  · rcases (hmem y p').mp hy with ⟨-, h2⟩ | h1
    · rw [h2]; exact hlt
    · exact i.old y p' h1

theorem Inv.linkNew {w : World} (i : Inv w) {p x : Id} (hx : w.parent x = none) (hlt : x < w.next) (n : Nat)
    (pos : Option Nat) : Inv (w.linkNew n p x pos).1 := by
  have i1 := i.added (p := p) hx hlt (pos.getD (w.kids p).length)
  unfold World.linkNew
  simp only
  split
  · exact i1
  · split
    · exact i1
    · split
      · exact i1.fix (connect_fix n _ _)
      · exact i1

theorem connect_parent (n : Nat) (w : World) (p : Id) : (w.connect n p).1.parent = w.parent :=
  (connect_fix n w p).parent

theorem connectTop_parent (n : Nat) (w : World) (p : Id) : (w.connectTop n p).1.parent = w.parent := by
  obtain ⟨r, f⟩ := connectTop_fix n w p
  exact f.parent

/-- After a call of `unlink_parameter` that returned. -/
theorem unlink_ok {w w' : World} {n : Nat} {p x : Id} (h : w.unlink n p x = (w', none)) :
    x ∈ w.kids p ∧ ∃ w2 w3, (w.setKids p ((w.kids p).erase x)).removeName n p (w.name x) = (w2, none) ∧
      (w2.setParent x none).connect n p = (w3, none) ∧ w3.connectTop n p = (w', none) := by
  unfold World.unlink at h
  split at h
  · rename_i hx
    obtain ⟨w2, h2, h⟩ := andThen_ok h
    obtain ⟨w3, h3, h⟩ := andThen_ok h
    exact ⟨hx, w2, w3, h2, h3, h⟩
  · cases h

theorem unlink_same {w w' : World} {n : Nat} {p x : Id} (h : w.unlink n p x = (w', none)) :
    w'.kids = upd w.kids p ((w.kids p).erase x) ∧ w'.parent = upd w.parent x none ∧
    w'.building = w.building ∧ w'.next = w.next ∧ w'.own = w.own ∧
    (∀ y, w.inited y = true → w'.inited y = true) := by
  obtain ⟨-, w2, w3, h2, h3, h4⟩ := unlink_ok h
  have s2 := removeName_same n (w.setKids p ((w.kids p).erase x)) p (w.name x)
  rw [h2] at s2
  have f3 := connect_fix n (w2.setParent x none) p
  rw [h3] at f3
  obtain ⟨r, f4⟩ := connectTop_fix n w3 p
  rw [h4] at f4
  refine ⟨f4.kids.trans (f3.kids.trans s2.1), ?_, f4.building.trans (f3.building.trans s2.2.2.1),
    f4.next.trans (f3.next.trans s2.2.2.2.1), f4.own.trans (f3.own.trans s2.2.2.2.2.1),
    fun y hy => f4.inited y (f3.inited y (s2.2.2.2.2.2.1 y hy))⟩
  rw [f4.parent, f3.parent]
  show upd w2.parent x none = _
  rw [s2.2.1]; rfl

theorem Inv.link {w : World} (i : Inv w) {p x : Id} (hlt : x < w.next) (n : Nat) (pos : Option Nat) :
    Inv (w.link n p x pos).1 := by
  have key : ∀ q, Inv (andThen (w.unlink n q x) (fun w => w.linkNew n p x pos)).1 := by
    intro q
    have i1 := i.unlink n q x
    refine andThen_ind i1 (fun w1 hu => ?_)
    rw [hu] at i1
    have s := unlink_same hu
    refine Inv.linkNew i1 ?_ ?_ n pos
    · rw [s.2.1, upd_same]
    · rw [s.2.2.2.1]; exact hlt
  unfold World.link
  split
  · cases pos with
    | none => exact i
    | some k => exact key p
  · cases hp : w.parent x with
    | none => exact i.linkNew hp hlt n pos
    | some q =>
      simp only
      split
      · exact i
      · exact key q

/-- A new name, together with the removal of the old attribute. -/
theorem Inv.renamed {w : World} (i : Inv w) {x q : Id} {new : Name} (hn : '\n' ∉ new) (hx : x ∈ w.kids q)
    {a : Name} (ha : adjust (w.name x) = some a) :
    Inv ((w.setName x new).put q (((w.setName x new).fam q).delAttr a)) := by
  refine ⟨fun p' m z hz => ?_, fun p' m hm => ?_, i.nodup, i.par, fun y => ?_, i.old⟩
  · by_cases h : p' = q
    · rw [h] at hz ⊢
      have hz : upd w.attrs q (fun m => if m = a then none else w.attrs q m) q m = some z := hz
      rw [upd_same] at hz
      exact sound_renamed (s := w.fam q) (new := new) ha (i.sound q) m z hz
    · have hz : upd w.attrs q (fun m => if m = a then none else w.attrs q m) p' m = some z := hz
      rw [upd_ne h] at hz
      obtain ⟨h1, h2⟩ := i.sound p' m z hz
      refine ⟨h1, ?_⟩
      show adjust (upd w.name x new z) = some m
      rw [upd_ne (fun e => i.not_kid hx h (by rw [← e]; exact h1))]; exact h2
  · have hm : (upd w.attrs q (fun m => if m = a then none else w.attrs q m) p' m).isSome = true := hm
    show w.own p' m = false
    by_cases h : p' = q
    · rw [h, upd_same] at hm
      rw [h]
      split at hm
      · cases hm
      · exact i.apart q m hm
    · rw [upd_ne h] at hm; exact i.apart p' m hm
  · show '\n' ∉ upd w.name x new y
    by_cases h : y = x
    · rw [h, upd_same]; exact hn
    · rw [upd_ne h]; exact i.nl y

/-- A new name for an object that nobody has an attribute for. -/
theorem Inv.setName {w : World} (i : Inv w) {x : Id} {new : Name} (hn : '\n' ∉ new)
    (h : (∀ p, x ∉ w.kids p) ∨ adjust (w.name x) = none) : Inv (w.setName x new) := by
  refine ⟨fun p' m z hz => ?_, i.apart, i.nodup, i.par, fun y => ?_, i.old⟩
  · obtain ⟨h1, h2⟩ := i.sound p' m z hz
    refine ⟨h1, ?_⟩
    show adjust (upd w.name x new z) = some m
    have : z ≠ x := by
      rintro rfl
      rcases h with h | h
      · exact h p' h1
      · have h2 : adjust (w.name z) = some m := h2
        rw [h] at h2; cases h2
    rw [upd_ne this]; exact h2
  · show '\n' ∉ upd w.name x new y
    by_cases h : y = x
    · rw [h, upd_same]; exact hn
    · rw [upd_ne h]; exact i.nl y

theorem Inv.rename {w : World} (i : Inv w) {x : Id} {new : Name} (hn : '\n' ∉ new)
    (hx : ∀ q, w.parent x = some q → x ∈ w.kids q) (n : Nat) : Inv (w.rename n x new).1 := by
  unfold World.rename
  cases hp : w.parent x with
  | none => exact i.setName hn (.inl (fun p => i.orphan hp p))
  | some q =>
    have hq := hx q hp
    have i1 : Inv ((w.setName x new).removeName n q (w.name x)).1 := by
      unfold removeName
      cases ha : adjust (w.name x) with
      | none => exact i.setName hn (.inr ha)
      | some a => exact (i.renamed hn hq ha).fix (connect_fix n _ q)
    have s1 := removeName_same n (w.setName x new) q (w.name x)
    refine andThen_ind i1 (fun w1 h1 => ?_)
    rw [h1] at i1 s1
    have hk : w1.kids = w.kids := s1.1
    exact Inv.fix i1 (addName_fix n w1 (by rw [hk]; exact hq))

theorem Inv.create {w : World} (i : Inv w) {b : Bool} {m : Name} {o : Name → Bool} (hn : '\n' ∉ m) :
    Inv (w.create b m o) := by
  have hkid : ∀ y p', y ∈ upd w.kids w.next [] p' → y ∈ w.kids p' ∧ p' ≠ w.next := by
    intro y p' hy
    by_cases h : p' = w.next
    · rw [h, upd_same] at hy; simp at hy
    · rw [upd_ne h] at hy; exact ⟨hy, h⟩
  refine ⟨fun p' k z hz => ?_, fun p' k hk => ?_, fun p' => ?_, fun y p' hy => ?_, fun y => ?_, fun y p' hy => ?_⟩
  · have hz : upd w.attrs w.next (fun _ => none) p' k = some z := hz
    by_cases h : p' = w.next
    · rw [h, upd_same] at hz; cases hz
    · rw [upd_ne h] at hz
      obtain ⟨h1, h2⟩ := i.sound p' k z hz
      have h1 : z ∈ w.kids p' := h1
      have hz' : z ≠ w.next := Nat.ne_of_lt (i.old z p' h1)
      refine ⟨?_, ?_⟩
      · show z ∈ upd w.kids w.next [] p'
        rw [upd_ne h]; exact h1
      · show adjust (upd w.name w.next m z) = some k
        rw [upd_ne hz']; exact h2
  · have hk : (upd w.attrs w.next (fun _ => none) p' k).isSome = true := hk
    show upd w.own w.next o p' k = false
    by_cases h : p' = w.next
    · rw [h, upd_same] at hk; cases hk
    · rw [upd_ne h] at hk ⊢; exact i.apart p' k hk
  · show (upd w.kids w.next [] p').Nodup
    by_cases h : p' = w.next
    · rw [h, upd_same]; exact List.nodup_nil
    · rw [upd_ne h]; exact i.nodup p'
  · obtain ⟨h1, -⟩ := hkid y p' hy
    show upd w.parent w.next none y = some p'
    rw [upd_ne (Nat.ne_of_lt (i.old y p' h1))]; exact i.par y p' h1
  · show '\n' ∉ upd w.name w.next m y
    by_cases h : y = w.next
    · rw [h, upd_same]; exact hn
    · rw [upd_ne h]; exact i.nl y
  · exact Nat.lt_succ_of_lt (i.old y p' (hkid y p' hy).1)

theorem Inv.setFlags {w : World} (i : Inv w) (x : Id) : Inv (w.setFlags x) :=
  ⟨i.sound, i.apart, i.nodup, i.par, i.nl, i.old⟩

theorem Inv.assign {w : World} (i : Inv w) (p : Id) (a : Name) : Inv (w.assign p a).1 := by
  unfold World.assign
  split
  · exact i
  · split
    · exact i
    · rename_i hno
      refine ⟨i.sound, fun p' m hm => ?_, i.nodup, i.par, i.nl, i.old⟩
      have hm : (w.attrs p' m).isSome = true := hm
      show upd w.own p (fun m => if m = a then true else w.own p m) p' m = false
      have := i.apart p' m hm
      by_cases h : p' = p
      · subst h
        rw [upd_same, if_neg]
        · exact this
        · rintro rfl
          obtain ⟨z, hz⟩ := Option.isSome_iff_exists.mp hm
          have hz : (w.fam p').attrs m = some z := hz
          exact hno ⟨z, (i.sound p' m z hz).1, (i.sound p' m z hz).2⟩
      · rw [upd_ne h]; exact this

theorem Inv.exec {w : World} (i : Inv w) {op : Op} (ha : w.Admissible op) (n : Nat) : Inv (w.exec n op).1 := by
  cases op with
  | create b m o => exact i.create ha
  | finish x ini =>
    show Inv (w.finish n x ini).1
    unfold World.finish
    split
    · exact (i.setFlags x).connectTop n x
    · exact i.setFlags x
  | link p x pos => exact i.link ha.2 n pos
  | unlink p x => exact i.unlink n p x
  | rename x new => exact i.rename ha.2.1 ha.2.2 n
  | initialise x => exact i.connectTop n x
  | assign p a => exact i.assign p a

theorem Inv.empty : Inv World.empty :=
  ⟨fun p m z hz => (by cases hz), fun p n hn => (by cases hn), fun _ => List.nodup_nil,
    fun x p h => absurd h List.not_mem_nil, fun _ => List.not_mem_nil, fun x p h => absurd h List.not_mem_nil⟩

theorem Reach.inv {w : World} (h : Reach w) : Inv w := by
  induction h with
  | empty => exact .empty
  | step _ ha ih => exact ih.exec ha _

end World

end Paramz.Names

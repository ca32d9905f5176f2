import Verif.Names.TreeInv

/-!
# Names in whole hierarchies (C83)
-/

namespace Paramz.Names

namespace World

/-! ### No false attributes -/

/-- **C83.** After any calls, also if some of them raised: whatever the library has added as an attribute of any
object of any hierarchy is a parameter of that object, under the printed form of its current name, and takes no
attribute of the object's own. -/
theorem attributes_are_parameters_partial {w : World} (h : Reach w) {p z : Id} {n : Name}
    (ha : w.attrs p n = some z) :
    z ∈ w.kids p ∧ adjust (w.name z) = some n ∧ w.own p n = false := by
  have i := h.inv
  obtain ⟨h1, h2⟩ := i.sound p n z ha
  exact ⟨h1, h2, i.apart p n (by rw [ha]; rfl)⟩

/-! ### Connected objects -/

/-- Names, attributes and parameters of `p` are the same. -/
structure Alike (w w' : World) (p : Id) : Prop where
  kids : w'.kids p = w.kids p
  attrs : w'.attrs p = w.attrs p
  own : ∀ n, w'.own p n = false → w.own p n = false
  name : ∀ x ∈ w.kids p, w'.name x = w.name x

theorem Alike.neat {w w' : World} {p : Id} (a : Alike w w' p) (h : Neat w p) : Neat w' p := by
  refine ⟨?_, fun x hx => ?_⟩
  · rw [a.kids]
    refine List.Pairwise.imp_of_mem ?_ h.names
    intro x y hx hy hne
    rw [a.name x hx, a.name y hy]; exact hne
  · rw [a.kids] at hx
    obtain ⟨n, h1, h2⟩ := h.found x hx
    refine ⟨n, by rw [a.name x hx]; exact h1, fun ho hu => ?_⟩
    rw [a.attrs]
    refine h2 (a.own n ho) (fun y hy hn => hu y (by rw [a.kids]; exact hy) ?_)
    rw [a.name y hy]; exact hn

theorem Alike.refl (w : World) (p : Id) : Alike w w p := ⟨rfl, rfl, fun _ h => h, fun _ _ => rfl⟩

theorem Alike.trans {w w' w'' : World} {p : Id} (a : Alike w w' p) (b : Alike w' w'' p) : Alike w w'' p :=
  ⟨b.kids.trans a.kids, b.attrs.trans a.attrs, fun n h => a.own n (b.own n h),
    fun x hx => (b.name x (by rw [a.kids]; exact hx)).trans (a.name x hx)⟩

theorem Fix.alike {w w' : World} {p p' : Id} (i : Inv w) (f : Fix w w' p) (h : p' ≠ p) : Alike w w' p' :=
  ⟨by rw [f.kids], f.attrs p' h, fun n hn => by rw [f.own] at hn; exact hn,
    fun x hx => f.name x (i.not_kid hx (fun e => h e.symm))⟩

/-- Connecting makes an object neat, if it does not raise. -/
theorem connect_neat {w w' : World} (i : Inv w) {n : Nat} {p : Id} (h : w.connect n p = (w', none)) :
    Neat w' p := by
  have hrun : (run n (w.fam p) none).2 = none := by
    have := congrArg Prod.snd h
    have this : (run n (w.fam p) none).2.map Exc.names = none := this
    cases hr : (run n (w.fam p) none).2 with
    | none => rfl
    | some e => rw [hr] at this; cases this
  have wf : WF (w.fam p) := by
    refine ⟨i.nodup p, fun x hx => ⟨?_, i.nl x⟩⟩
    cases ha : adjust ((w.fam p).name x) with
    | none => exact absurd hrun (run_bad hx ha)
    | some a => rfl
  have hgo : (w.fam p).connect n = .ok (run n (w.fam p) none).1 := by
    unfold Fam.connect
    rw [run_go, toExcept_ok]
    exact Prod.ext rfl hrun
  have d := connect_done wf hgo
  have wf' := d.wf wf
  have hu := (connect_unique wf hgo).2.2
  have hs := d.sound (i.sound p)
  have hw : w' = (w.mark p).put p (run n (w.fam p) none).1 := (congrArg Prod.fst h).symm
  have hfam : w'.fam p = (run n (w.fam p) none).1 := by
    rw [hw]; exact fam_put (w.mark p) d.kids d.own
  rw [← hfam] at hu hs wf'
  have hc := d.complete
  rw [← hfam] at hc
  refine ⟨?_, fun x hx => ?_⟩
  · have hu : ((w'.kids p).map w'.name).Nodup := hu
    rw [List.Nodup, List.pairwise_map] at hu
    exact hu
  · obtain ⟨a, ha⟩ := Option.isSome_iff_exists.mp (wf'.good x hx).1
    refine ⟨a, ha, fun ho hun => ?_⟩
    rcases hc x hx a ha with h1 | h1
    · have h1 : w'.own p a = true := h1
      rw [ho] at h1; cases h1
    · obtain ⟨z, hz⟩ := Option.isSome_iff_exists.mp h1
      have hz' : w'.attrs p a = some z := hz
      obtain ⟨h2, h3⟩ := hs a z hz
      rw [hz', hun z h2 h3]

theorem highest_root {w : World} : ∀ {n : Nat} {x r : Id}, w.highest n x = some r → Root w x r
  | 0, x, r, h => by cases h
  | n + 1, x, r, h => by
    rw [highest] at h
    cases hp : w.parent x with
    | none => rw [hp] at h; cases h; exact .top hp
    | some p => rw [hp] at h; exact .up hp (highest_root h)

theorem Root.unique {w : World} {x r r' : Id} (h : Root w x r) (h' : Root w x r') : r = r' := by
  induction h with
  | top h1 =>
    cases h' with
    | top _ => rfl
    | up h2 _ => rw [h1] at h2; cases h2
  | up h1 _ ih =>
    cases h' with
    | top h2 => rw [h1] at h2; cases h2
    | up h2 h3 =>
      rw [h1] at h2
      cases h2
      exact ih h3

theorem Root.congr {w w' : World} (hp : w'.parent = w.parent) {x r : Id} (h : Root w' x r) : Root w x r := by
  induction h with
  | top h1 => rw [hp] at h1; exact .top h1
  | up h1 _ ih => rw [hp] at h1; exact .up h1 ih

theorem connectTop_ok {w w' : World} {n : Nat} {x : Id} (h : w.connectTop n x = (w', none)) :
    ∃ r, Root w x r ∧ w.connect n r = (w', none) := by
  unfold connectTop at h
  cases hr : w.highest n x with
  | none => rw [hr] at h; cases h
  | some r => rw [hr] at h; exact ⟨r, highest_root hr, h⟩

/-- The root is neat afterwards. -/
theorem connectTop_root {w w' : World} (i : Inv w) {n : Nat} {x r : Id} (h : w.connectTop n x = (w', none))
    (hr : Root w' x r) : Neat w' r := by
  obtain ⟨r', h1, h2⟩ := connectTop_ok h
  have f := connect_fix n w r'
  rw [h2] at f
  rw [(hr.congr f.parent).unique h1]
  exact connect_neat i h2

/-- Everything else stays neat. -/
theorem connectTop_kept {w w' : World} (i : Inv w) {n : Nat} {x p : Id} (h : w.connectTop n x = (w', none))
    (hn : Neat w p) : Neat w' p := by
  obtain ⟨r, h1, h2⟩ := connectTop_ok h
  by_cases hp : p = r
  · rw [hp]; exact connect_neat i h2
  · have f := connect_fix n w r
    rw [h2] at f
    exact (f.alike i hp).neat hn

/-- What `unlink_parameter` does, if it returns. -/
theorem unlink_neat {w w' : World} (i : Inv w) {n : Nat} {p x : Id} (h : w.unlink n p x = (w', none)) :
    Neat w' p ∧ (∀ r, Root w' p r → Neat w' r) ∧ ∀ p', Neat w p' → Neat w' p' := by
  obtain ⟨hx, w2, w3, h2, h3, h4⟩ := unlink_ok h
  have i2 := i.remove n p x
  rw [h2] at i2
  have s2 := removeName_same n (w.setKids p ((w.kids p).erase x)) p (w.name x)
  rw [h2] at s2
  have hk : w2.kids = upd w.kids p ((w.kids p).erase x) := s2.1
  have i3 : Inv (w2.setParent x none) := by
    refine i2.orphaned (fun p' h' => ?_)
    have h' : x ∈ w2.kids p' := h'
    rw [hk] at h'
    by_cases h : p' = p
    · rw [h, upd_same] at h'
      exact (List.Nodup.not_mem_erase (i.nodup p)) h'
    · rw [upd_ne h] at h'
      exact i.not_kid hx h h'
  have f3 := connect_fix n (w2.setParent x none) p
  have i4 := i3.fix f3
  rw [h3] at f3 i4
  have n3 : Neat w3 p := connect_neat i3 h3
  refine ⟨connectTop_kept i4 h4 n3, fun r hr => connectTop_root i4 h4 hr, fun p' hn => ?_⟩
  refine connectTop_kept i4 h4 ?_
  by_cases hp : p' = p
  · rw [hp]; exact n3
  · refine (Alike.trans (w' := w2.setParent x none) ?_ (f3.alike i3 hp)).neat hn
    refine ⟨?_, s2.2.2.2.2.2.2.1 p' hp, fun m hm => ?_, fun y hy => ?_⟩
    · show w2.kids p' = w.kids p'
      rw [hk, upd_ne hp]
    · have hm : w2.own p' m = false := hm
      have ho : w2.own = w.own := s2.2.2.2.2.1
      rw [ho] at hm; exact hm
    · refine s2.2.2.2.2.2.2.2 y (fun hy' => ?_)
      have hy' : y ∈ upd w.kids p ((w.kids p).erase x) p := hy'
      rw [upd_same] at hy'
      exact i.not_kid hy (fun e => hp e.symm) (List.mem_of_mem_erase hy')

/-- What `linkNew` does, if it returns: the root is neat if it was initialised, and everything else stays so. -/
theorem linkNew_neat {w w' : World} (i : Inv w) {n : Nat} {p x : Id} {pos : Option Nat}
    (hx : w.parent x = none) (hlt : x < w.next) (h : w.linkNew n p x pos = (w', none)) :
    (w.building p = false → ∀ r, Root w' p r → w.inited r = true → Neat w' r) ∧
    ∀ p', p' ≠ p → Neat w p' → Neat w' p' := by
  have i1 := i.added (p := p) hx hlt (pos.getD (w.kids p).length)
  unfold World.linkNew at h
  simp only at h
  have al : ∀ p', p' ≠ p → Alike w ((w.setKids p ((w.kids p).take (pos.getD (w.kids p).length) ++
      x :: (w.kids p).drop (pos.getD (w.kids p).length))).setParent x (some p)) p' := by
    intro p' hp
    exact ⟨upd_ne hp, rfl, fun _ h => h, fun _ _ => rfl⟩
  generalize hw1 : (w.setKids p ((w.kids p).take (pos.getD (w.kids p).length) ++
      x :: (w.kids p).drop (pos.getD (w.kids p).length))).setParent x (some p) = w1 at h al i1
  have hb : w1.building = w.building := by rw [← hw1]; rfl
  have hi : w1.inited = w.inited := by rw [← hw1]; rfl
  split at h
  · rename_i hbp
    cases h
    refine ⟨fun hf => ?_, fun p' hp hn => (al p' hp).neat hn⟩
    rw [hb, hf] at hbp; cases hbp
  · split at h
    · cases h
    · rename_i r hr
      split at h
      · refine ⟨fun _ r' hr' _ => ?_, fun p' hp hn => ?_⟩
        · have f := connect_fix n w1 r
          rw [h] at f
          rw [(hr'.congr f.parent).unique (highest_root hr)]
          exact connect_neat i1 h
        · by_cases hpr : p' = r
          · rw [hpr]; exact connect_neat i1 h
          · have f := connect_fix n w1 r
            rw [h] at f
            exact (f.alike i1 hpr).neat ((al p' hp).neat hn)
      · rename_i hin
        cases h
        refine ⟨fun _ r' hr' hir => ?_, fun p' hp hn => (al p' hp).neat hn⟩
        rw [hr'.unique (highest_root hr)] at hir
        rw [hi] at hin
        exact absurd hir hin

/-- What is changed by `linkNew` besides names, if it returns. -/
theorem linkNew_same {w w' : World} {n : Nat} {p x : Id} {pos : Option Nat}
    (h : w.linkNew n p x pos = (w', none)) :
    w'.parent = upd w.parent x (some p) ∧ w'.building = w.building ∧ w'.next = w.next ∧
    (∀ y, y ≠ p → w'.kids y = w.kids y) ∧ (∀ y, w.inited y = true → w'.inited y = true) := by
  unfold World.linkNew at h
  simp only at h
  split at h
  · cases h
    exact ⟨rfl, rfl, rfl, fun y hy => upd_ne hy, fun _ h => h⟩
  · split at h
    · cases h
    · split at h
      · rename_i r _ _
        have f := connect_fix n ((w.setKids p ((w.kids p).take (pos.getD (w.kids p).length) ++
          x :: (w.kids p).drop (pos.getD (w.kids p).length))).setParent x (some p)) r
        rw [h] at f
        exact ⟨f.parent, f.building, f.next, fun y hy => by rw [f.kids]; exact upd_ne hy, f.inited⟩
      · cases h
        exact ⟨rfl, rfl, rfl, fun y hy => upd_ne hy, fun _ h => h⟩

/-- `link_parameter` that returns is `linkNew` in a state in which the object has no parent. -/
theorem link_ok {w w' : World} (i : Inv w) {n : Nat} {p x : Id} {pos : Option Nat}
    (h : w.link n p x pos = (w', none)) :
    ∃ w1, Inv w1 ∧ w1.parent = upd w.parent x none ∧ w1.building = w.building ∧ w1.next = w.next ∧
      (∀ y, w.inited y = true → w1.inited y = true) ∧ w1.linkNew n p x pos = (w', none) ∧
      (∀ p', Neat w p' → Neat w1 p') := by
  have key : ∀ q, andThen (w.unlink n q x) (fun w => w.linkNew n p x pos) = (w', none) →
      ∃ w1, Inv w1 ∧ w1.parent = upd w.parent x none ∧ w1.building = w.building ∧ w1.next = w.next ∧
      (∀ y, w.inited y = true → w1.inited y = true) ∧ w1.linkNew n p x pos = (w', none) ∧
      (∀ p', Neat w p' → Neat w1 p') := by
    intro q hq
    obtain ⟨w1, h1, h2⟩ := andThen_ok hq
    have i1 := i.unlink n q x
    rw [h1] at i1
    obtain ⟨-, s2, s3, s4, -, s6⟩ := unlink_same h1
    exact ⟨w1, i1, s2, s3, s4, s6, h2, (unlink_neat i h1).2.2⟩
  unfold World.link at h
  split at h
  · cases pos with
    | none => cases h
    | some k => exact key p h
  · cases hp : w.parent x with
    | none =>
      rw [hp] at h
      refine ⟨w, i, ?_, rfl, rfl, fun _ h => h, h, fun _ h => h⟩
      funext y
      unfold upd
      split
      · rename_i e; rw [e, hp]
      · rfl
    | some q =>
      rw [hp] at h
      simp only at h
      split at h
      · cases h
      · exact key q h

theorem rename_neat {w w' : World} (i : Inv w) {n : Nat} {x : Id} {new : Name} (hn : '\n' ∉ new)
    (hx : ∀ q, w.parent x = some q → x ∈ w.kids q) (h : w.rename n x new = (w', none)) :
    (∀ q, w.parent x = some q → Neat w' q) ∧ ∀ p', Neat w p' → Neat w' p' := by
  unfold World.rename at h
  cases hp : w.parent x with
  | none =>
    rw [hp] at h
    cases h
    refine ⟨fun q hq => (by cases hq), fun p' h' => ?_⟩
    exact Alike.neat (w := w) ⟨rfl, rfl, fun _ h => h, fun y hy =>
      upd_ne (fun e => i.orphan hp p' (by rw [← e]; exact hy))⟩ h'
  | some q =>
    rw [hp] at h
    have hq := hx q hp
    obtain ⟨w1, h1, h2⟩ := andThen_ok h
    have hcon : ∃ a, adjust (w.name x) = some a ∧
        ((w.setName x new).put q (((w.setName x new).fam q).delAttr a)).connect n q = (w1, none) := by
      unfold removeName at h1
      cases ha : adjust (w.name x) with
      | none => rw [ha] at h1; cases h1
      | some a => rw [ha] at h1; exact ⟨a, rfl, h1⟩
    obtain ⟨a, ha, hcon⟩ := hcon
    have i0 := i.renamed hn hq ha
    have n1 : Neat w1 q := connect_neat i0 hcon
    have f1 := connect_fix n ((w.setName x new).put q (((w.setName x new).fam q).delAttr a)) q
    have i1 := i0.fix f1
    rw [hcon] at f1 i1
    have hq1 : x ∈ w1.kids q := by rw [f1.kids]; exact hq
    -- the object is found, so adding its name changes nothing that matters
    have hnd : ∀ y ∈ w1.kids q, w1.name y = w1.name x → y = x := by
      intro y hy he
      have hnd : ((w1.kids q).map w1.name).Nodup := by
        rw [List.Nodup, List.pairwise_map]; exact n1.names
      exact List.inj_on_of_nodup_map hnd hy hq1 he
    have ho : (w1.fam q).other x = none := other_none.mpr (fun y hy he => hnd y hy he)
    obtain ⟨b, hb, hfb⟩ := n1.found x hq1
    have hrun : ∃ k, n = k + 1 ∧ run n (w1.fam q) (some x) = ((w1.fam q).setAttr b x, none) := by
      cases n with
      | zero => exact absurd (congrArg Prod.snd h2) (by simp [addName, run])
      | succ k =>
        refine ⟨k, rfl, ?_⟩
        have hb' : adjust ((w1.fam q).name x) = some b := hb
        rw [run]
        simp only [hb', ho]
    obtain ⟨k, rfl, hrun⟩ := hrun
    have hw' : w' = w1.put q ((w1.fam q).setAttr b x) := by
      have := congrArg Prod.fst h2
      have this : w1.put q (run (k + 1) (w1.fam q) (some x)).1 = w' := this
      rw [hrun] at this
      exact this.symm
    have e := (setAttr_ext (s := w1.fam q) (x := x) (n := b) hq1 hb).1
    have hfam : w'.fam q = (w1.fam q).setAttr b x := by rw [hw']; exact fam_put w1 e.kids e.own
    have f2 := addName_fix (k + 1) w1 hq1
    rw [h2] at f2
    have hname : w'.name = w1.name := by
      rw [hw']; exact e.name
    have n2 : Neat w' q := by
      refine ⟨?_, fun y hy => ?_⟩
      · rw [f2.kids, hname]; exact n1.names
      · rw [f2.kids] at hy
        obtain ⟨c, hc, hfc⟩ := n1.found y hy
        refine ⟨c, by rw [hname]; exact hc, fun ho' hu => ?_⟩
        rw [f2.own] at ho'
        have h5 := hfc ho' (fun z hz hzc => hu z (by rw [f2.kids]; exact hz) (by rw [hname]; exact hzc))
        have h6 : (w'.fam q).attrs c = some y := by
          rw [hfam]
          unfold Fam.setAttr
          split
          · exact h5
          · show (if c = b then some x else w1.attrs q c) = some y
            split
            · rename_i hno hcb
              rw [Bool.or_eq_true, not_or] at hno
              exact absurd (by rw [← hcb]; show (w1.attrs q c).isSome = true; rw [h5]; rfl) hno.2
            · exact h5
        exact h6
    refine ⟨fun q' hq' => (by cases hq'; exact n2), fun p' h' => ?_⟩
    by_cases hpq : p' = q
    · rw [hpq]; exact n2
    · refine (Alike.trans (w' := w1) ?_ (f2.alike i1 hpq)).neat h'
      refine Alike.trans (w' := (w.setName x new).put q (((w.setName x new).fam q).delAttr a)) ?_
        (f1.alike i0 hpq)
      exact ⟨rfl, upd_ne hpq, fun _ h => h, fun y hy =>
        upd_ne (fun e => i.not_kid hq hpq (by rw [← e]; exact hy))⟩

/-- **C83.** Which objects are neat after a call that returned: the parent of a renamed object; the object
something is unlinked from, and its root; the root of what is initialised; and the root of what something is
linked to, if it was initialised and the constructor of the object linked to is not running. -/
theorem call_makes_neat {w w' : World} (h : Reach w) {n : Nat} {op : Op} (ha : w.Admissible op)
    (he : w.exec n op = (w', none)) :
    match op with
    | .rename x _ => ∀ q, w.parent x = some q → Neat w' q
    | .unlink p _ => Neat w' p ∧ ∀ r, Root w' p r → Neat w' r
    | .initialise x => ∀ r, Root w' x r → Neat w' r
    | .finish x ini => ini = true → ∀ r, Root w' x r → Neat w' r
    | .link p _ _ => w.building p = false → ∀ r, Root w' p r → w.inited r = true → Neat w' r
    | .create _ _ _ => Neat w' w.next
    | .assign _ _ => True := by
  have i := h.inv
  cases op with
  | create b m o =>
    cases he
    have hk : (w.create b m o).kids w.next = [] := upd_same _ _ _
    exact ⟨by rw [hk]; exact List.Pairwise.nil, fun x hx => by rw [hk] at hx; simp at hx⟩
  | finish x ini =>
    intro hini r hr
    have he : w.finish n x ini = (w', none) := he
    unfold World.finish at he
    rw [if_pos hini] at he
    exact connectTop_root (i.setFlags x) he hr
  | link p x pos =>
    intro hb r hr hi
    obtain ⟨w1, i1, h2, h3, h4, h5, h6, -⟩ := link_ok i he
    exact (linkNew_neat i1 (by rw [h2, upd_same]) (by rw [h4]; exact ha.2) h6).1 (by rw [h3]; exact hb) r hr
      (h5 r hi)
  | unlink p x => exact ⟨(unlink_neat i he).1, (unlink_neat i he).2.1⟩
  | rename x new => exact (rename_neat i ha.2.1 ha.2.2 he).1
  | initialise x => exact fun r hr => connectTop_root i he hr
  | assign p a => trivial

/-- **C83.** An object stays neat through every call that returns, except when a parameter is linked to it while
it has a parent, is not initialised, or is in its constructor. -/
theorem call_keeps_neat {w w' : World} (h : Reach w) {n : Nat} {op : Op} (ha : w.Admissible op)
    (he : w.exec n op = (w', none)) {p : Id} (hold : p < w.next) (hn : Neat w p)
    (hlink : ∀ x pos, op = .link p x pos → w.parent p = none ∧ w.inited p = true ∧ w.building p = false) :
    Neat w' p := by
  have i := h.inv
  cases op with
  | create b m o =>
    cases he
    have hne : p ≠ w.next := Nat.ne_of_lt hold
    refine Alike.neat (w := w) ⟨upd_ne hne, upd_ne hne, fun k hk => ?_, fun x hx => ?_⟩ hn
    · have hk : upd w.own w.next o p k = false := hk
      rwa [upd_ne hne] at hk
    · exact upd_ne (Nat.ne_of_lt (i.old x p hx))
  | finish x ini =>
    have he : w.finish n x ini = (w', none) := he
    unfold World.finish at he
    have hn1 : Neat (w.setFlags x) p := Alike.neat (w := w) ⟨rfl, rfl, fun _ h => h, fun _ _ => rfl⟩ hn
    split at he
    · exact connectTop_kept (i.setFlags x) he hn1
    · cases he; exact hn1
  | link q x pos =>
    obtain ⟨w1, i1, h2, h3, h4, h5, h6, h7⟩ := link_ok i he
    have l := linkNew_neat i1 (by rw [h2, upd_same]) (by rw [h4]; exact ha.2) h6
    by_cases hpq : p = q
    · subst hpq
      obtain ⟨g1, g2, g3⟩ := hlink x pos rfl
      have s := linkNew_same h6
      refine l.1 (by rw [h3]; exact g3) p ?_ (h5 p g2)
      by_cases hxp : x = p
      · -- a cycle: the root is not found
        subst hxp
        exfalso
        have hpar : w'.parent x = some x := by rw [s.1, upd_same]
        have noroot : ∀ m (v : World), v.parent x = some x → v.highest m x = none := by
          intro m
          induction m with
          | zero => intro v _; rfl
          | succ m ih => intro v hv; rw [highest, hv]; exact ih v hv
        unfold World.linkNew at h6
        simp only at h6
        split at h6
        · rename_i hb
          have hb : w1.building x = true := hb
          rw [h3, g3] at hb; cases hb
        · rw [noroot n _ (upd_same _ _ _)] at h6
          cases h6
      · refine .top ?_
        rw [s.1, upd_ne (fun e => hxp e.symm), h2, upd_ne (fun e => hxp e.symm)]
        exact g1
    · exact l.2 p hpq (h7 p hn)
  | unlink q x => exact (unlink_neat i he).2.2 p hn
  | rename x new => exact (rename_neat i ha.2.1 ha.2.2 he).2 p hn
  | initialise x => exact connectTop_kept i he hn
  | assign q a =>
    have he : w.assign q a = (w', none) := he
    unfold World.assign at he
    split at he
    · cases he
    · split at he
      · cases he; exact hn
      · cases he
        refine Alike.neat (w := w) ⟨rfl, rfl, fun k hk => ?_, fun _ _ => rfl⟩ hn
        have hk : upd w.own q (fun m => if m = a then true else w.own q m) p k = false := hk
        by_cases h : p = q
        · rw [h, upd_same] at hk
          rw [h]
          split at hk
          · cases hk
          · exact hk
        · rwa [upd_ne h] at hk

/-! ### Hierarchies built from the bottom -/

theorem Built.reach {w : World} (h : Built w) : Reach w := by
  induction h with
  | empty => exact .empty
  | @step w w' n op _ ha _ he ih =>
    have := Reach.step (n := n) ih ha
    rw [he] at this
    exact this

/-- What else changes in a call that returns. -/
theorem exec_same {w w' : World} (i : Inv w) {n : Nat} {op : Op} (ha : w.Admissible op)
    (he : w.exec n op = (w', none)) (hc : ∀ b m o, op ≠ .create b m o) (hf : ∀ x ini, op ≠ .finish x ini) :
    w'.next = w.next ∧ w'.building = w.building ∧ (∀ y, w.inited y = true → w'.inited y = true) ∧
    (∀ y, w.parent y = none → (∀ p pos, op ≠ .link p y pos) → w'.parent y = none) := by
  cases op with
  | create b m o => exact absurd rfl (hc b m o)
  | finish x ini => exact absurd rfl (hf x ini)
  | link p x pos =>
    obtain ⟨w1, i1, h2, h3, h4, h5, h6, -⟩ := link_ok i he
    obtain ⟨s1, s2, s3, -, s5⟩ := linkNew_same h6
    refine ⟨s3.trans h4, s2.trans h3, fun y hy => s5 y (h5 y hy), fun y hy hne => ?_⟩
    have hyx : y ≠ x := fun e => hne p pos (by rw [e])
    rw [s1, upd_ne hyx, h2, upd_ne hyx]
    exact hy
  | unlink p x =>
    obtain ⟨-, s2, s3, s4, -, s6⟩ := unlink_same he
    refine ⟨s4, s3, s6, fun y hy _ => ?_⟩
    rw [s2]
    unfold upd
    split
    · rfl
    · exact hy
  | rename x new =>
    have he : w.rename n x new = (w', none) := he
    unfold World.rename at he
    cases hp : w.parent x with
    | none => rw [hp] at he; cases he; exact ⟨rfl, rfl, fun _ h => h, fun _ h _ => h⟩
    | some q =>
      rw [hp] at he
      obtain ⟨w1, h1, h2⟩ := andThen_ok he
      have s := removeName_same n (w.setName x new) q (w.name x)
      rw [h1] at s
      have hq : x ∈ w1.kids q := by rw [s.1]; exact ha.2.2 q hp
      have f := addName_fix n w1 hq
      rw [h2] at f
      refine ⟨f.next.trans s.2.2.2.1, f.building.trans s.2.2.1, fun y hy => f.inited y (s.2.2.2.2.2.1 y hy),
        fun y hy _ => ?_⟩
      rw [f.parent, s.2.1]; exact hy
  | initialise x =>
    obtain ⟨r, f⟩ := connectTop_fix n w x
    have he : w.connectTop n x = (w', none) := he
    rw [he] at f
    exact ⟨f.next, f.building, f.inited, fun y hy _ => by rw [f.parent]; exact hy⟩
  | assign p a =>
    have he : w.assign p a = (w', none) := he
    unfold World.assign at he
    split at he
    · cases he
    · split at he <;> cases he <;> exact ⟨rfl, rfl, fun _ h => h, fun _ h _ => h⟩

/-- What holds while a hierarchy is built from the bottom. -/
structure BuiltInv (w : World) : Prop where
  neat : ∀ p, p < w.next → w.building p = false → Neat w p ∧ w.inited p = true
  top : ∀ p, p < w.next → w.building p = true → w.parent p = none

theorem Built.inv {w : World} (h : Built w) : BuiltInv w := by
  induction h with
  | empty => exact ⟨fun p hp => absurd hp (Nat.not_lt_zero p), fun p hp => absurd hp (Nat.not_lt_zero p)⟩
  | @step w w' n op hb ha hu he ih =>
    have hr := hb.reach
    have i := hr.inv
    by_cases hc : ∃ b m o, op = .create b m o
    · obtain ⟨b, m, o, rfl⟩ := hc
      have hnew := call_makes_neat hr ha he
      have hkeep := fun p hp hn => call_keeps_neat hr ha he (p := p) hp hn (fun x pos h => by cases h)
      cases he
      refine ⟨fun p hp hbp => ?_, fun p hp hbp => ?_⟩
      · by_cases hpn : p = w.next
        · rw [hpn] at hbp ⊢
          have hbp : upd w.building w.next (!b) w.next = false := hbp
          rw [upd_same, Bool.not_eq_false'] at hbp
          refine ⟨hnew, ?_⟩
          show upd w.inited w.next b w.next = true
          rw [upd_same]; exact hbp
        · have hp' : p < w.next := Nat.lt_of_le_of_ne (Nat.le_of_lt_succ hp) hpn
          have hbp : upd w.building w.next (!b) p = false := hbp
          rw [upd_ne hpn] at hbp
          obtain ⟨h1, h2⟩ := ih.neat p hp' hbp
          refine ⟨hkeep p hp' h1, ?_⟩
          show upd w.inited w.next b p = true
          rw [upd_ne hpn]; exact h2
      · show upd w.parent w.next none p = none
        by_cases hpn : p = w.next
        · rw [hpn, upd_same]
        · have hp' : p < w.next := Nat.lt_of_le_of_ne (Nat.le_of_lt_succ hp) hpn
          have hbp : upd w.building w.next (!b) p = true := hbp
          rw [upd_ne hpn] at hbp
          rw [upd_ne hpn]; exact ih.top p hp' hbp
    · by_cases hf : ∃ x ini, op = .finish x ini
      · obtain ⟨x, ini, rfl⟩ := hf
        obtain ⟨hbx, hini⟩ := hu
        have hxt := ih.top x ha hbx
        have hkeep := fun p hp hn => call_keeps_neat hr ha he (p := p) hp hn (fun x pos h => by cases h)
        have hnew := call_makes_neat hr ha he hini
        have he : w.finish n x ini = (w', none) := he
        unfold World.finish at he
        rw [if_pos hini] at he
        obtain ⟨r, hroot, hcon⟩ := connectTop_ok he
        have hrx : r = x := hroot.unique (.top hxt)
        rw [hrx] at hcon
        have f := connect_fix n (w.setFlags x) x
        rw [hcon] at f
        have hpar : w'.parent = w.parent := f.parent
        have hbuild : w'.building = upd w.building x false := f.building
        have hnext : w'.next = w.next := f.next
        refine ⟨fun p hp hbp => ?_, fun p hp hbp => ?_⟩
        · rw [hnext] at hp
          by_cases hpx : p = x
          · rw [hpx]
            refine ⟨hnew x (.top (by rw [hpar]; exact hxt)), ?_⟩
            have hw : w' = ((w.setFlags x).mark x).put x (run n ((w.setFlags x).fam x) none).1 :=
              (congrArg Prod.fst hcon).symm
            rw [hw]
            show (_ || decide (x = x) || _) = true
            simp
          · rw [hbuild, upd_ne hpx] at hbp
            obtain ⟨h1, h2⟩ := ih.neat p hp hbp
            refine ⟨hkeep p hp h1, f.inited p ?_⟩
            show upd w.inited x false p = true
            rw [upd_ne hpx]; exact h2
        · rw [hnext] at hp
          rw [hbuild] at hbp
          rw [hpar]
          by_cases hpx : p = x
          · rw [hpx]; exact hxt
          · rw [upd_ne hpx] at hbp
            exact ih.top p hp hbp
      · push Not at hc hf
        obtain ⟨s1, s2, s3, s4⟩ := exec_same i ha he hc hf
        refine ⟨fun p hp hbp => ?_, fun p hp hbp => ?_⟩
        · rw [s1] at hp
          rw [s2] at hbp
          obtain ⟨h1, h2⟩ := ih.neat p hp hbp
          refine ⟨call_keeps_neat hr ha he hp h1 (fun x pos ho => ?_), s3 p h2⟩
          rw [ho] at hu
          exact ⟨hu.1, h2, hbp⟩
        · rw [s1] at hp
          rw [s2] at hbp
          refine s4 p (ih.top p hp hbp) (fun q pos ho => ?_)
          rw [ho] at hu
          have := hu.2.2
          rw [hbp] at this; cases this

/-- **C83.** In a hierarchy built from the bottom, every finished object, at every level, has parameters with
pairwise different names, and finds each under its printed name. -/
theorem built_neat {w : World} (h : Built w) {p : Id} (hp : p < w.next) (hb : w.building p = false) : Neat w p :=
  (h.inv.neat p hp hb).1

end World

end Paramz.Names

import Verif.Names.TreeProps

/-!
# Calls that return, and calls that raise (C83)
-/

namespace Paramz.Names

namespace World

/-- The names of all parameters can be printed. -/
def Printable (w : World) : Prop := ∀ p, ∀ x ∈ w.kids p, (adjust (w.name x)).isSome = true

/-- No object is above itself. -/
def Forest (w : World) : Prop := ∃ d : Id → Nat, ∀ x p, w.parent x = some p → d p < d x

structure Good (w : World) : Prop where
  inv : Inv w
  prt : Printable w
  forest : Forest w

/-- With enough recursion depth the call returns, in a state that does not depend on the depth. -/
def Ends (f : Nat → World × Option Exc) (Q : World → Prop) : Prop :=
  ∃ N w', Q w' ∧ ∀ n, N ≤ n → f n = (w', none)

theorem Ends.andThen {f : Nat → World × Option Exc} {g : Nat → World → World × Option Exc} {Q R : World → Prop}
    (h : Ends f Q) (hg : ∀ w, Q w → Ends (fun n => g n w) R) : Ends (fun n => andThen (f n) (g n)) R := by
  obtain ⟨N, w1, h1, h2⟩ := h
  obtain ⟨M, w2, h3, h4⟩ := hg w1 h1
  refine ⟨max N M, w2, h3, fun n hn => ?_⟩
  show Names.andThen (f n) (g n) = _
  rw [h2 n (Nat.le_trans (Nat.le_max_left _ _) hn)]
  exact h4 n (Nat.le_trans (Nat.le_max_right _ _) hn)

theorem Ends.imp {f : Nat → World × Option Exc} {Q R : World → Prop} (h : Ends f Q) (hQ : ∀ w, Q w → R w) :
    Ends f R := by
  obtain ⟨N, w1, h1, h2⟩ := h
  exact ⟨N, w1, hQ _ h1, h2⟩

theorem Root.congr' {w w' : World} (hp : w'.parent = w.parent) {x r : Id} (h : Root w x r) : Root w' x r :=
  h.congr hp.symm

theorem root_highest {w : World} {x r : Id} (h : Root w x r) : ∃ N, ∀ n, N ≤ n → w.highest n x = some r := by
  induction h with
  | top h =>
    refine ⟨1, fun n hn => ?_⟩
    obtain ⟨m, rfl⟩ : ∃ m, n = m + 1 := ⟨n - 1, by omega⟩
    rw [highest, h]
  | up h _ ih =>
    obtain ⟨N, hN⟩ := ih
    refine ⟨N + 1, fun n hn => ?_⟩
    obtain ⟨m, rfl⟩ : ∃ m, n = m + 1 := ⟨n - 1, by omega⟩
    rw [highest, h]
    exact hN m (by omega)

theorem Forest.root {w : World} (h : Forest w) (x : Id) : ∃ r, Root w x r := by
  obtain ⟨d, hd⟩ := h
  have : ∀ k x, d x ≤ k → ∃ r, Root w x r := by
    intro k
    induction k with
    | zero =>
      intro x hx
      cases hp : w.parent x with
      | none => exact ⟨x, .top hp⟩
      | some p => have := hd x p hp; omega
    | succ k ih =>
      intro x hx
      cases hp : w.parent x with
      | none => exact ⟨x, .top hp⟩
      | some p =>
        have := hd x p hp
        obtain ⟨r, hr⟩ := ih p (by omega)
        exact ⟨r, .up hp hr⟩
  exact this (d x) x (Nat.le_refl _)

theorem connect_ends {w : World} (g : Good w) (p : Id) :
    Ends (fun n => w.connect n p) (fun w' => Good w' ∧ Fix w w' p ∧ Neat w' p) := by
  have wf : WF (w.fam p) := ⟨g.inv.nodup p, fun x hx => ⟨g.prt p x hx, g.inv.nl x⟩⟩
  obtain ⟨N, hN⟩ := connect_terminates wf
  have hok : ∀ n, N ≤ n → (run n (w.fam p) none).2 = none := by
    intro n hn
    obtain ⟨s', hs⟩ := hN n hn
    unfold Fam.connect at hs
    rw [run_go, toExcept_ok] at hs
    rw [hs]
  have hconst : ∀ k, run (N + k) (w.fam p) none = run N (w.fam p) none := by
    intro k
    induction k with
    | zero => rfl
    | succ k ih =>
      rw [← ih]
      refine run_mono (N + k) _ _ ?_
      rw [hok (N + k) (Nat.le_add_right _ _)]
      intro h; cases h
  have hcon : ∀ n, N ≤ n → w.connect n p = ((w.connect N p).1, none) := by
    intro n hn
    obtain ⟨k, rfl⟩ := Nat.exists_eq_add_of_le hn
    unfold connect
    rw [hconst k, hok N (Nat.le_refl _)]
    rfl
  have f := connect_fix N w p
  have i' := g.inv.fix f
  have hn := connect_neat g.inv (hcon N (Nat.le_refl _))
  refine ⟨N, _, ⟨⟨i', fun q x hx => ?_, ?_⟩, f, hn⟩, hcon⟩
  · by_cases hq : q = p
    · rw [hq] at hx
      obtain ⟨a, ha, -⟩ := hn.found x hx
      rw [ha]; rfl
    · rw [f.kids] at hx
      rw [f.name x (g.inv.not_kid hx (fun e => hq e.symm))]
      exact g.prt q x hx
  · obtain ⟨d, hd⟩ := g.forest
    exact ⟨d, fun x q hq => hd x q (by rw [f.parent] at hq; exact hq)⟩

theorem connectTop_ends {w : World} (g : Good w) (x : Id) :
    Ends (fun n => w.connectTop n x) (fun w' => Good w' ∧ ∃ r, Fix w w' r) := by
  obtain ⟨r, hr⟩ := g.forest.root x
  obtain ⟨N, hN⟩ := root_highest hr
  obtain ⟨M, w', h1, h2⟩ := connect_ends g r
  refine ⟨max N M, w', ⟨h1.1, r, h1.2.1⟩, fun n hn => ?_⟩
  show w.connectTop n x = _
  unfold connectTop
  rw [hN n (Nat.le_trans (Nat.le_max_left _ _) hn)]
  exact h2 n (Nat.le_trans (Nat.le_max_right _ _) hn)

theorem unlink_ends {w : World} (g : Good w) {p x : Id} (hx : x ∈ w.kids p) :
    Ends (fun n => w.unlink n p x)
      (fun w' => Good w' ∧ w'.parent = upd w.parent x none ∧ w'.next = w.next ∧ w'.name x = w.name x) := by
  obtain ⟨a, ha⟩ := Option.isSome_iff_exists.mp (g.prt p x hx)
  have hnot : x ∉ (w.kids p).erase x := List.Nodup.not_mem_erase (g.inv.nodup p)
  have g0 : Good ((w.setKids p ((w.kids p).erase x)).put p
      (({ w.fam p with kids := (w.kids p).erase x } : Fam).delAttr a)) := by
    refine ⟨g.inv.takeOut (p := p) (x := x) _ (.inr ⟨a, ha, rfl⟩), fun q y hy => ?_, g.forest⟩
    have hy : y ∈ upd w.kids p ((w.kids p).erase x) q := hy
    show (adjust (w.name y)).isSome = true
    by_cases hq : q = p
    · rw [hq, upd_same] at hy
      exact g.prt p y (List.mem_of_mem_erase hy)
    · rw [upd_ne hq] at hy
      exact g.prt q y hy
  have hfun : (fun n => w.unlink n p x) = fun n =>
      andThen (((w.setKids p ((w.kids p).erase x)).put p
        (({ w.fam p with kids := (w.kids p).erase x } : Fam).delAttr a)).connect n p) (fun w2 =>
        andThen ((w2.setParent x none).connect n p) (fun w3 => w3.connectTop n p)) := by
    funext n
    unfold World.unlink
    rw [if_pos hx]
    unfold removeName
    rw [ha]
    simp only
    rw [fam_setKids]
  rw [hfun]
  refine Ends.andThen (g := fun n w2 => andThen ((w2.setParent x none).connect n p)
    (fun w3 => w3.connectTop n p)) (connect_ends g0 p) ?_
  rintro w2 ⟨g2, f2, -⟩
  have hk2 : w2.kids = upd w.kids p ((w.kids p).erase x) := f2.kids
  have hx2 : ∀ q, x ∉ w2.kids q := by
    intro q hq
    rw [hk2] at hq
    by_cases h : q = p
    · rw [h, upd_same] at hq; exact hnot hq
    · rw [upd_ne h] at hq; exact g.inv.not_kid hx h hq
  have hn2 : w2.name x = w.name x := by
    refine f2.name x (fun h => ?_)
    have h : x ∈ upd w.kids p ((w.kids p).erase x) p := h
    rw [upd_same] at h; exact hnot h
  have hp2 : w2.parent = w.parent := f2.parent
  have g2' : Good (w2.setParent x none) := by
    refine ⟨g2.inv.orphaned hx2, g2.prt, ?_⟩
    obtain ⟨d, hd⟩ := g2.forest
    refine ⟨d, fun y q hq => ?_⟩
    have hq : upd w2.parent x none y = some q := hq
    by_cases hy : y = x
    · rw [hy, upd_same] at hq; cases hq
    · rw [upd_ne hy] at hq; exact hd y q hq
  refine Ends.andThen (g := fun n w3 => w3.connectTop n p) (connect_ends g2' p) ?_
  rintro w3 ⟨g3, f3, -⟩
  refine (connectTop_ends g3 p).imp ?_
  rintro w4 ⟨g4, r, f4⟩
  refine ⟨g4, ?_, ?_, ?_⟩
  · rw [f4.parent, f3.parent]
    show upd w2.parent x none = _
    rw [hp2]
  · rw [f4.next, f3.next]
    exact f2.next
  · have hx3 : ∀ q, x ∉ w3.kids q := by
      intro q hq
      rw [f3.kids] at hq
      exact hx2 q hq
    rw [f4.name x (hx3 r), f3.name x (hx2 p)]
    exact hn2

theorem linkNew_ends {w : World} (g : Good w) {p x : Id} (hx : w.parent x = none) (hlt : x < w.next)
    (hprt : (adjust (w.name x)).isSome = true) (hcyc : ¬ Root w p x) (pos : Option Nat) :
    Ends (fun n => w.linkNew n p x pos) (fun _ => True) := by
  have i1 := g.inv.added (p := p) hx hlt (pos.getD (w.kids p).length)
  have g1 : Good ((w.setKids p ((w.kids p).take (pos.getD (w.kids p).length) ++
      x :: (w.kids p).drop (pos.getD (w.kids p).length))).setParent x (some p)) := by
    refine ⟨i1, fun q y hy => ?_, ?_⟩
    · have hy : y ∈ upd w.kids p _ q := hy
      show (adjust (w.name y)).isSome = true
      by_cases hq : q = p
      · rw [hq, upd_same, mem_insert] at hy
        rcases hy with rfl | hy
        · exact hprt
        · exact g.prt p y hy
      · rw [upd_ne hq] at hy
        exact g.prt q y hy
    · classical
      obtain ⟨d, hd⟩ := g.forest
      refine ⟨fun y => d y + if Root w y x then d p + 1 else 0, fun y q hq => ?_⟩
      have hq : upd w.parent x (some p) y = some q := hq
      by_cases hy : y = x
      · rw [hy, upd_same] at hq
        cases hq
        rw [hy]
        beta_reduce
        rw [if_neg hcyc, if_pos (.top hx)]
        omega
      · rw [upd_ne hy] at hq
        have h1 := hd y q hq
        have h2 : Root w y x ↔ Root w q x := by
          constructor
          · intro h
            cases h with
            | top _ => exact absurd rfl hy
            | up h3 h4 => rw [hq] at h3; cases h3; exact h4
          · intro h; exact .up hq h
        beta_reduce
        by_cases h : Root w y x
        · rw [if_pos h, if_pos (h2.mp h)]; omega
        · rw [if_neg h, if_neg (fun h' => h (h2.mpr h'))]; omega
  unfold World.linkNew
  simp only
  generalize (w.setKids p ((w.kids p).take (pos.getD (w.kids p).length) ++
      x :: (w.kids p).drop (pos.getD (w.kids p).length))).setParent x (some p) = w1 at g1 ⊢
  by_cases hb : w1.building p = true
  · exact ⟨0, w1, trivial, fun n _ => by simp only [hb, if_true]⟩
  · obtain ⟨r, hr⟩ := g1.forest.root p
    obtain ⟨N, hN⟩ := root_highest hr
    by_cases hi : w1.inited r = true
    · obtain ⟨M, w', -, h2⟩ := connect_ends g1 r
      refine ⟨max N M, w', trivial, fun n hn => ?_⟩
      simp only [hb, hN n (Nat.le_trans (Nat.le_max_left _ _) hn), hi, if_true]
      exact h2 n (Nat.le_trans (Nat.le_max_right _ _) hn)
    · refine ⟨N, w1, trivial, fun n hn => ?_⟩
      simp only [hb, hN n hn, hi]
      rfl

/-- Chains of parents after the parent of `x` has been taken away. -/
theorem root_cut {w w1 : World} {x : Id} (hp : w1.parent = upd w.parent x none) {y z : Id}
    (h : Root w1 y z) : z = x → (∀ r, Root w x r → Root w y r) ∧
      ∀ d : Id → Nat, (∀ x p, w.parent x = some p → d p < d x) → d x ≤ d y := by
  induction h with
  | top _ => rintro rfl; exact ⟨fun r h => h, fun d _ => Nat.le_refl _⟩
  | @up y q _ h1 _ ih =>
    intro hz
    obtain ⟨h2, h3⟩ := ih hz
    have hy : y ≠ x := by
      rintro rfl
      rw [hp, upd_same] at h1; cases h1
    rw [hp, upd_ne hy] at h1
    exact ⟨fun r hr => .up h1 (h2 r hr), fun d hd => Nat.le_trans (h3 d hd) (Nat.le_of_lt (hd y q h1))⟩

/-- **C83.** If the names of all parameters can be printed and no object is above itself, then every call
returns or is refused with `HierarchyError`, given enough recursion depth, and then the depth does not matter;
provided that the new name of an object with a parent, and the name of what is linked, can be printed, and that
nothing is linked to something below itself. -/
theorem call_returns {w : World} (h : Reach w) (hprt : Printable w) (hfor : Forest w) {op : Op}
    (hop : match op with
      | .link p x _ => (adjust (w.name x)).isSome = true ∧ ¬ Root w p x
      | .rename _ new => (adjust new).isSome = true
      | _ => True)
    (ha : w.Admissible op) :
    ∃ N w' e, (∀ n, N ≤ n → w.exec n op = (w', e)) ∧ (e = none ∨ e = some .hierarchyError) := by
  have g : Good w := ⟨h.inv, hprt, hfor⟩
  have fin : ∀ {f : Nat → World × Option Exc} {Q : World → Prop}, Ends f Q →
      ∃ N w' e, (∀ n, N ≤ n → f n = (w', e)) ∧ (e = none ∨ e = some .hierarchyError) := by
    rintro f Q ⟨N, w', -, h⟩
    exact ⟨N, w', none, h, .inl rfl⟩
  cases op with
  | create b m o => exact ⟨0, _, _, fun n _ => rfl, .inl rfl⟩
  | finish x ini =>
    have gf : Good (w.setFlags x) := ⟨g.inv.setFlags x, g.prt, g.forest⟩
    by_cases hi : ini = true
    · refine fin (f := fun n => w.exec n (.finish x ini))
        (Q := fun w' => Good w' ∧ ∃ r, Fix (w.setFlags x) w' r) ?_
      · obtain ⟨N, w', h1, h2⟩ := connectTop_ends gf x
        refine ⟨N, w', h1, fun n hn => ?_⟩
        show w.finish n x ini = _
        unfold World.finish
        rw [if_pos hi]; exact h2 n hn
    · refine ⟨0, w.setFlags x, none, fun n _ => ?_, .inl rfl⟩
      show w.finish n x ini = _
      unfold World.finish
      rw [if_neg hi]
  | link p x pos =>
    obtain ⟨hpx, hcyc⟩ := hop
    have after : ∀ {q : Id}, x ∈ w.kids q → (∀ w1 : World, w1.parent = upd w.parent x none → ¬ Root w1 p x) →
        Ends (fun n => andThen (w.unlink n q x) (fun w => w.linkNew n p x pos)) (fun _ => True) := by
      intro q hq hc
      refine Ends.andThen (g := fun n w => w.linkNew n p x pos) (unlink_ends g hq) ?_
      rintro w1 ⟨g1, hp1, hn1, hx1⟩
      exact linkNew_ends g1 (by rw [hp1, upd_same]) (by rw [hn1]; exact ha.2) (by rw [hx1]; exact hpx)
        (hc w1 hp1) pos
    by_cases hk : x ∈ w.kids p
    · cases pos with
      | none =>
        refine ⟨0, w, some .hierarchyError, fun n _ => ?_, .inr rfl⟩
        show w.link n p x none = _
        unfold World.link
        rw [if_pos hk]
      | some k =>
        have e : (fun n => w.exec n (.link p x (some k))) =
            fun n => andThen (w.unlink n p x) (fun w => w.linkNew n p x (some k)) := by
          funext n
          show w.link n p x (some k) = _
          unfold World.link
          rw [if_pos hk]
        have := after hk (fun w1 hp1 hr => by
          obtain ⟨d, hd⟩ := g.forest
          have h1 := (root_cut hp1 hr rfl).2 d hd
          have h2 := hd x p (g.inv.par x p hk)
          omega)
        rw [← e] at this
        exact fin this
    · cases hpar : w.parent x with
      | none =>
        have e : (fun n => w.exec n (.link p x pos)) = fun n => w.linkNew n p x pos := by
          funext n
          show w.link n p x pos = _
          unfold World.link
          rw [if_neg hk, hpar]
        have := linkNew_ends g hpar ha.2 hpx hcyc pos
        rw [← e] at this
        exact fin this
      | some q =>
        obtain ⟨rx, hrx⟩ := g.forest.root x
        obtain ⟨rp, hrp⟩ := g.forest.root p
        obtain ⟨N1, hN1⟩ := root_highest hrx
        obtain ⟨N2, hN2⟩ := root_highest hrp
        by_cases hr : rx = rp
        · refine ⟨max N1 N2, w, some .hierarchyError, fun n hn => ?_, .inr rfl⟩
          show w.link n p x pos = _
          unfold World.link
          rw [if_neg hk, hpar]
          simp only
          rw [if_pos]
          rw [hN1 n (Nat.le_trans (Nat.le_max_left _ _) hn), hN2 n (Nat.le_trans (Nat.le_max_right _ _) hn), hr]
        · have e : ∀ n, max N1 N2 ≤ n → w.exec n (.link p x pos) =
              andThen (w.unlink n q x) (fun w => w.linkNew n p x pos) := by
            intro n hn
            show w.link n p x pos = _
            unfold World.link
            rw [if_neg hk, hpar]
            simp only
            rw [if_neg]
            rw [hN1 n (Nat.le_trans (Nat.le_max_left _ _) hn), hN2 n (Nat.le_trans (Nat.le_max_right _ _) hn)]
            intro h; exact hr (Option.some.inj h)
          by_cases hq : x ∈ w.kids q
          · obtain ⟨N, w', -, h2⟩ := after hq (fun w1 hp1 hr1 =>
              hr (((root_cut hp1 hr1 rfl).1 rx hrx).unique hrp))
            refine ⟨max N (max N1 N2), w', none, fun n hn => ?_, .inl rfl⟩
            rw [e n (Nat.le_trans (Nat.le_max_right _ _) hn)]
            exact h2 n (Nat.le_trans (Nat.le_max_left _ _) hn)
          · refine ⟨max N1 N2, w, some .hierarchyError, fun n hn => ?_, .inr rfl⟩
            rw [e n hn]
            unfold World.unlink
            rw [if_neg hq]
            rfl
  | unlink p x =>
    by_cases hx : x ∈ w.kids p
    · exact fin (f := fun n => w.exec n (.unlink p x)) (unlink_ends g hx)
    · refine ⟨0, w, some .hierarchyError, fun n _ => ?_, .inr rfl⟩
      show w.unlink n p x = _
      unfold World.unlink
      rw [if_neg hx]
  | rename x new =>
    cases hpar : w.parent x with
    | none =>
      refine ⟨0, w.setName x new, none, fun n _ => ?_, .inl rfl⟩
      show w.rename n x new = _
      unfold World.rename
      rw [hpar]
    | some q =>
      have hq := ha.2.2 q hpar
      obtain ⟨a, hadj⟩ := Option.isSome_iff_exists.mp (g.prt q x hq)
      have i0 := g.inv.renamed ha.2.1 hq hadj
      have g0 : Good ((w.setName x new).put q (((w.setName x new).fam q).delAttr a)) := by
        refine ⟨i0, fun p' y hy => ?_, g.forest⟩
        show (adjust (upd w.name x new y)).isSome = true
        by_cases hyx : y = x
        · rw [hyx, upd_same]; exact hop
        · rw [upd_ne hyx]; exact g.prt p' y hy
      have e : (fun n => w.exec n (.rename x new)) = fun n =>
          andThen (((w.setName x new).put q (((w.setName x new).fam q).delAttr a)).connect n q)
            (fun w => w.addName n q x) := by
        funext n
        show w.rename n x new = _
        unfold World.rename
        rw [hpar]
        simp only
        unfold removeName
        rw [hadj]
      have := Ends.andThen (g := fun n w => w.addName n q x) (R := fun _ => True) (connect_ends g0 q) (by
        rintro w1 ⟨g1, f1, n1⟩
        have hq1 : x ∈ w1.kids q := by rw [f1.kids]; exact hq
        have ho : (w1.fam q).other x = none := other_none.mpr (fun y hy he => by
          have hnd : ((w1.kids q).map w1.name).Nodup := by
            rw [List.Nodup, List.pairwise_map]; exact n1.names
          exact List.inj_on_of_nodup_map hnd hy hq1 he)
        obtain ⟨b, hb, -⟩ := n1.found x hq1
        have hb' : adjust ((w1.fam q).name x) = some b := hb
        refine ⟨1, w1.put q ((w1.fam q).setAttr b x), trivial, fun n hn => ?_⟩
        obtain ⟨k, rfl⟩ : ∃ k, n = k + 1 := ⟨n - 1, by omega⟩
        show w1.addName (k + 1) q x = _
        have hrun : run (k + 1) (w1.fam q) (some x) = ((w1.fam q).setAttr b x, none) := by
          rw [run]
          simp only [hb', ho]
        unfold addName
        rw [hrun]
        rfl)
      rw [← e] at this
      exact fin this
  | initialise x => exact fin (f := fun n => w.exec n (.initialise x)) (connectTop_ends g x)
  | assign p a =>
    have hno : ¬ ∃ x ∈ w.kids p, adjust (w.name x) = none := by
      rintro ⟨x, hx, hn⟩
      have := g.prt p x hx
      rw [hn] at this; cases this
    by_cases he : ∃ x ∈ w.kids p, adjust (w.name x) = some a
    · refine ⟨0, w, none, fun n _ => ?_, .inl rfl⟩
      show w.assign p a = _
      unfold World.assign
      rw [if_neg hno, if_pos he]
    · refine ⟨0, w.setOwn p a, none, fun n _ => ?_, .inl rfl⟩
      show w.assign p a = _
      unfold World.assign
      rw [if_neg hno, if_neg he]

/-! ### A name that cannot be printed -/

theorem connect_bad {w : World} {p b : Id} (hb : b ∈ w.kids p) (hbad : adjust (w.name b) = none) (n : Nat) :
    (w.connect n p).2 ≠ none := by
  intro h
  have h : (run n (w.fam p) none).2.map Exc.names = none := h
  rw [Option.map_eq_none_iff] at h
  exact run_bad (s := w.fam p) hb hbad h

theorem andThen_raises {σ ε : Type} {r : σ × Option ε} {f : σ → σ × Option ε} (h : r.2 ≠ none) :
    (andThen r f).2 ≠ none := by
  obtain ⟨s, _ | e⟩ := r
  · exact absurd rfl h
  · exact fun h => by cases h

/-- **C83.** What is linked stays linked although the call raises: if the name of `x` cannot be printed, linking it
to an initialised object without parent raises, and `x` is a parameter of that object from then on. -/
theorem bad_name_linked {w : World} {p x : Id} (hpar : w.parent x = none) (hx : x ∉ w.kids p) (hp : x ≠ p)
    (htop : w.parent p = none) (hb : w.building p = false) (hi : w.inited p = true)
    (hbad : adjust (w.name x) = none) (pos : Option Nat) (n : Nat) :
    (w.exec n (.link p x pos)).2 ≠ none ∧ x ∈ (w.exec n (.link p x pos)).1.kids p := by
  have e : w.exec n (.link p x pos) = w.linkNew n p x pos := by
    show w.link n p x pos = _
    unfold World.link
    rw [if_neg hx, hpar]
  rw [e]
  unfold World.linkNew
  simp only
  generalize hw1 : (w.setKids p ((w.kids p).take (pos.getD (w.kids p).length) ++
      x :: (w.kids p).drop (pos.getD (w.kids p).length))).setParent x (some p) = w1
  have hk : x ∈ w1.kids p := by
    rw [← hw1]
    show x ∈ upd w.kids p _ p
    rw [upd_same, mem_insert]; exact .inl rfl
  have hb1 : w1.building p = false := by rw [← hw1]; exact hb
  have hi1 : w1.inited p = true := by rw [← hw1]; exact hi
  have ht1 : w1.parent p = none := by
    rw [← hw1]
    show upd w.parent x (some p) p = none
    rw [upd_ne (fun e => hp e.symm)]; exact htop
  have hn1 : adjust (w1.name x) = none := by rw [← hw1]; exact hbad
  rw [hb1]
  simp only [Bool.false_eq_true, if_false]
  cases n with
  | zero => exact ⟨fun h => (by cases h), hk⟩
  | succ n =>
    have hh : w1.highest (n + 1) p = some p := by rw [highest, ht1]
    rw [hh]
    simp only [hi1, if_true]
    exact ⟨connect_bad hk hn1 _, by rw [(connect_fix (n + 1) w1 p).kids]; exact hk⟩

/-- **C83.** And then nothing works any more: while `p` has a parameter `b` whose name cannot be printed, every
call raises that unlinks a parameter from `p`, renames one (also `b` itself), sets an attribute of `p`, or, if `p` is the
object without parent above, initialises it or links something to it. -/
theorem bad_name_raises {w : World} {p b : Id} (hb : b ∈ w.kids p) (hbad : adjust (w.name b) = none) {op : Op}
    (hop : match op with
      | .unlink q _ => q = p
      | .rename x _ => w.parent x = some p
      | .assign q _ => q = p
      | .initialise x => Root w x p
      | .link q x _ => q = p ∧ w.parent p = none ∧ w.building p = false ∧ w.inited p = true ∧
          w.parent x = none ∧ x ∉ w.kids p ∧ x ≠ p
      | _ => False) (n : Nat) :
    (w.exec n op).2 ≠ none := by
  have remove : ∀ (w1 : World) (old : Name), b ∈ w1.kids p → adjust (w1.name b) = none →
      (w1.removeName n p old).2 ≠ none := by
    intro w1 old h1 h2
    unfold removeName
    cases adjust old with
    | none => exact fun h => (by cases h)
    | some a => exact connect_bad (w := w1.put p ((w1.fam p).delAttr a)) h1 h2 n
  cases op with
  | create b m o => exact hop.elim
  | finish x ini => exact hop.elim
  | link q x pos =>
    obtain ⟨rfl, htop, hbd, hi, hpar, hx, hne⟩ := hop
    have e : w.exec n (.link q x pos) = w.linkNew n q x pos := by
      show w.link n q x pos = _
      unfold World.link
      rw [if_neg hx, hpar]
    rw [e]
    unfold World.linkNew
    simp only
    generalize hw1 : (w.setKids q ((w.kids q).take (pos.getD (w.kids q).length) ++
        x :: (w.kids q).drop (pos.getD (w.kids q).length))).setParent x (some q) = w1
    have hk : b ∈ w1.kids q := by
      rw [← hw1]
      show b ∈ upd w.kids q _ q
      rw [upd_same, mem_insert]; exact .inr hb
    have hb1 : w1.building q = false := by rw [← hw1]; exact hbd
    have hi1 : w1.inited q = true := by rw [← hw1]; exact hi
    have ht1 : w1.parent q = none := by
      rw [← hw1]
      show upd w.parent x (some q) q = none
      rw [upd_ne (fun e => hne e.symm)]; exact htop
    have hn1 : adjust (w1.name b) = none := by rw [← hw1]; exact hbad
    rw [hb1]
    simp only [Bool.false_eq_true, if_false]
    cases n with
    | zero => exact fun h => (by cases h)
    | succ n =>
      have hh : w1.highest (n + 1) q = some q := by rw [highest, ht1]
      rw [hh]
      simp only [hi1, if_true]
      exact connect_bad hk hn1 _
  | unlink q x =>
    obtain rfl := hop
    show (w.unlink n q x).2 ≠ none
    unfold World.unlink
    split
    · refine andThen_raises ?_
      by_cases hx : b = x
      · unfold removeName
        rw [← hx, hbad]
        exact fun h => (by cases h)
      · refine remove _ _ ?_ hbad
        show b ∈ upd w.kids q _ q
        rw [upd_same]
        exact (List.mem_erase_of_ne hx).mpr hb
    · exact fun h => (by cases h)
  | rename x new =>
    show (w.rename n x new).2 ≠ none
    have hop : w.parent x = some p := hop
    unfold World.rename
    rw [hop]
    refine andThen_raises ?_
    by_cases hx : b = x
    · unfold removeName
      rw [← hx, hbad]
      exact fun h => (by cases h)
    · refine remove _ _ hb ?_
      show adjust (upd w.name x new b) = none
      rw [upd_ne hx]; exact hbad
  | initialise x =>
    show (w.connectTop n x).2 ≠ none
    unfold connectTop
    cases hr : w.highest n x with
    | none => exact fun h => (by cases h)
    | some r =>
      rw [(highest_root hr).unique hop]
      exact connect_bad hb hbad n
  | assign q a =>
    obtain rfl := hop
    show (w.assign q a).2 ≠ none
    unfold World.assign
    rw [if_pos ⟨b, hb, hbad⟩]
    exact fun h => (by cases h)

/-- **C83.** An object that has a parent but no place in the parent's list can be linked nowhere. -/
theorem left_over_refused {w : World} {x q : Id} (hpar : w.parent x = some q) (hx : x ∉ w.kids q) {p : Id}
    (hp : x ∉ w.kids p) (pos : Option Nat) (n : Nat) :
    w.exec n (.link p x pos) = (w, some .hierarchyError) := by
  show w.link n p x pos = _
  unfold World.link
  rw [if_neg hp, hpar]
  simp only
  split
  · rfl
  · unfold World.unlink
    rw [if_neg hx]
    rfl

end World

end Paramz.Names

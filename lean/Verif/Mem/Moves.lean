import Verif.Mem.Fresh

/-!
# Values when a parameter is inserted into or removed from a connected hierarchy
-/

set_option linter.unusedSectionVars false

namespace Paramz.Memory

open Hier (Id Graph upd upd_same upd_ne)
open Hier.Graph (Anc At Skel Sized Ins)

variable {V : Type}

/-- The array of `n` does not have the size of `n`. -/
def Misfit (g : Graph) (m : Mem V) (n : Id) : Prop := ∀ u, ¬ Fits g m n u

section
variable {g g' : Graph} {p x : Id} {A B : List Id}

theorem leaf_not_above (s : Skel g) {y p : Id} (hl : g.leaf y = true) (hp : g.leaf p = false) :
    ¬ Anc g y p := by
  intro ha
  have := anc_of_leaf s hl ha
  subst this
  rw [hl] at hp; cases hp

/-- Insertion: the arrays are still sound if those of the enlarged objects do not fit any more. -/
theorem ins_sound (s : Skel g) (i : Ins g g' p x A B) {m : Mem V} (S : Sound g m)
    (hmis : 0 < g.size x → ∀ n, Anc g n p → Misfit g' m n) : Sound g' m := by
  have hsz : ∀ n, ¬ Misfit g' m n → g'.size n = g.size n := by
    intro n hn
    by_cases ha : Anc g n p
    · rcases Nat.eq_zero_or_pos (g.size x) with h0 | h0
      · rw [i.size_anc n ha, h0]; rfl
      · exact absurd (hmis h0 n ha) hn
    · exact i.size_not n ha
  have hhas : ∀ n B i, Has g' m n B i → Has g m n B i := by
    rintro n B i ⟨v, h1, h2, h3⟩
    exact ⟨v, h1, h2.trans (hsz n (fun h => h v ⟨h1, h2⟩)), h3⟩
  refine ⟨?_, ?_, ?_, S.bd⟩
  · intro y hy; rw [i.leaf] at hy; exact S.lo y hy
  · intro y hy hl
    rw [i.next] at hy
    rw [i.leaf] at hl
    obtain ⟨v, h1, h2⟩ := S.lf y hy hl
    exact ⟨v, h1, h2.trans (i.size_not y (leaf_not_above s hl i.node)).symm⟩
  · intro n y B j hl h1 h2
    rw [i.leaf] at hl
    exact i.anc_mono (S.sep n y B j hl (hhas _ _ _ h1) (hhas _ _ _ h2))

/-- Removal. -/
theorem del_sound (s : Skel g) (z : Sized g) (i : Ins g g' p x A B) {m : Mem V}
    (S : Sound g' m) (hmis : 0 < g.size x → ∀ n, Anc g n p → Misfit g m n) : Sound g m := by
  have hsz : ∀ n, ¬ Misfit g m n → g'.size n = g.size n := by
    intro n hn
    by_cases ha : Anc g n p
    · rcases Nat.eq_zero_or_pos (g.size x) with h0 | h0
      · rw [i.size_anc n ha, h0]; rfl
      · exact absurd (hmis h0 n ha) hn
    · exact i.size_not n ha
  have hhas : ∀ n B i, Has g m n B i → Has g' m n B i := by
    rintro n B i ⟨v, h1, h2, h3⟩
    exact ⟨v, h1, h2.trans (hsz n (fun h => h v ⟨h1, h2⟩)).symm, h3⟩
  refine ⟨?_, ?_, ?_, S.bd⟩
  · intro y hy; rw [← i.leaf] at hy; exact S.lo y hy
  · intro y hy hl
    have hl' := hl
    rw [← i.next] at hy
    rw [← i.leaf] at hl
    obtain ⟨v, h1, h2⟩ := S.lf y hy hl
    exact ⟨v, h1, h2.trans (i.size_not y (leaf_not_above s hl' i.node))⟩
  · intro n y B j hl h1 h2
    have hl' : g'.leaf y = true := by rw [i.leaf]; exact hl
    have ha := S.sep n y B j hl' (hhas _ _ _ h1) (hhas _ _ _ h2)
    by_cases hx : Anc g x y
    · have hor : Anc g n y ∨ Anc g n p := by
        clear h1 h2 hl hl'
        induction ha with
        | refl => exact .inl .refl
        | @step q c _ hc ih =>
          by_cases hcx : c = x
          · subst hcx
            rw [i.parent_x] at hc
            cases hc
            exact .inr (i.anc_p.mp (by assumption))
          · rw [i.parent_ne c hcx] at hc
            rcases (Hier.Graph.anc_iff_of_parent hc).mp hx with h | h
            · exact absurd h.symm hcx
            · rcases ih h with h3 | h3
              · exact .inl (.step h3 hc)
              · exact .inr h3
      rcases hor with h | h
      · exact h
      · rcases Nat.eq_zero_or_pos (g.size x) with h0 | h0
        · exfalso
          obtain ⟨k, hk⟩ := s.exists_at hx
          have := hk.window s z
          obtain ⟨v, -, h3, -, h4, h5⟩ := h2
          omega
        · obtain ⟨v, h3, h4, -⟩ := h1
          exact absurd ⟨h3, h4⟩ (hmis h0 n h v)
    · exact i.anc_of ha hx

theorem ins_calm (s : Skel g) (s' : Skel g') (i : Ins g g' p x A B) {m : Mem V} {n : Id}
    (hn : ¬ Anc g n p) (hc : Calm g m n) : Calm g' m n :=
  Mem.Calm.transfer hc (fun _ _ hy =>
    have h := ins_at_back s s' i hn hy
    ⟨h.1, h.2, rfl, rfl⟩)

theorem del_calm (s : Skel g) (i : Ins g g' p x A B) {m : Mem V} {n : Id}
    (hn : ¬ Anc g n p) (hc : Calm g' m n) : Calm g m n :=
  Mem.Calm.transfer hc (fun y _ hy =>
    ⟨i.at_other s hn hy, (i.size_not y (fun ha => hn ((hy.anc s).trans ha))).symm, rfl, rfl⟩)

/-- Positions when the object inserted has no elements. -/
theorem at_zero (s : Skel g) (z : Sized g) (i : Ins g g' p x A B) (h0 : g.size x = 0) {r y k : Nat}
    (h : At g r y k) : At g' r y k := by
  by_cases hr : Anc g r p
  · obtain ⟨o, hp⟩ := s.exists_at hr
    obtain ⟨h1, h2⟩ := i.at_tree s z hp h
    by_cases hy : Anc g y p
    · exact h1 hy
    · rcases h2 hy with ⟨h3, -⟩ | ⟨h3, -⟩
      · exact h3
      · rw [h0] at h3; exact h3
  · exact i.at_other s hr h

theorem size_zero (i : Ins g g' p x A B) (h0 : g.size x = 0) (y : Id) : g'.size y = g.size y := by
  by_cases hy : Anc g y p
  · rw [i.size_anc y hy, h0]; rfl
  · exact i.size_not y hy

theorem del_calm_zero (s : Skel g) (z : Sized g) (i : Ins g g' p x A B) (h0 : g.size x = 0) {m : Mem V}
    {n : Id} (hc : Calm g' m n) : Calm g m n :=
  Mem.Calm.transfer hc (fun y _ hy => ⟨at_zero s z i h0 hy, (size_zero i h0 y).symm, rfl, rfl⟩)

theorem ins_calm_zero (s : Skel g) (z : Sized g) (s' : Skel g') (i : Ins g g' p x A B)
    (h0 : g.size x = 0) {m : Mem V} {n : Id} (hc : Calm g m n) : Calm g' m n := by
  obtain ⟨b, o, hc⟩ := hc
  refine ⟨b, o, fun y k hy hpos => ?_⟩
  rw [size_zero i h0] at hpos ⊢
  have hx : ¬ Anc g x y := by
    intro h
    obtain ⟨j, hj⟩ := s.exists_at h
    have := hj.window s z
    omega
  obtain ⟨k', hk'⟩ := s.exists_at (i.anc_of (hy.anc s') hx)
  have := s'.at_unique hy (at_zero s z i h0 hk')
  subst this
  exact hc y k hk' hpos

theorem Calm.congr {m m' : Mem V} {n : Id} (h : Calm g m n)
    (ha : ∀ y, 0 < g.size y → m'.arr y = m.arr y ∧ m'.owns y = m.owns y) : Calm g m' n := by
  obtain ⟨b, o, h⟩ := h
  refine ⟨b, o, fun y k hy hpos => ?_⟩
  rw [(ha y hpos).1, (ha y hpos).2]
  exact h y k hy hpos

/-- Connecting after an insertion. -/
theorem ins_connect (s : Skel g) (z : Sized g) (s' : Skel g') (z' : Sized g') (i : Ins g g' p x A B)
    (spoil : Nat → Nat → V) {m : Mem V} (S : Sound g m) {r : Id}
    (hrp : Anc g r p) (hc : Calm g m r) (hcx : Calm g m x)
    (hb : ∀ n, Anc g r n → ¬ Anc g n p → Calm g m n)
    (hmis : 0 < g.size x → ∀ n, Anc g n p → Misfit g' m n) :
    Sound g' (m.connect spoil g' r) ∧
    ∀ y, g'.leaf y = true → y < g'.next →
      (∀ e c, g'.parent e = some r → g'.parent c = some e → Anc g' c p → ¬ Anc g' c y) →
      Keeps g' m (m.connect spoil g' r) y := by
  have S' := ins_sound s i S hmis
  rcases Nat.eq_zero_or_pos (g.size x) with h0 | h0
  · obtain ⟨h1, -, h2⟩ := Mem.connect_settled s' z' spoil S' (ins_calm_zero s z s' i h0 hc)
    exact ⟨h1, fun y hl hlt _ => h2 y hl hlt⟩
  · have hxp : ¬ Anc g x p := i.notanc
    have hrp' : Anc g' r p := i.anc_p.mpr hrp
    have hk : g'.kids r ≠ [] := by
      by_cases he : r = p
      · subst he; rw [i.kids_p']; simp
      · obtain ⟨e, A', B', hk', -⟩ := Hier.Graph.Ins.child_above s' hrp' he
        rw [hk']; simp
    have hcalm : ∀ n, Anc g' r n → ¬ Anc g' n p → Calm g' m n := by
      intro n hn hnp
      rw [i.anc_p] at hnp
      by_cases hx : Anc g x n
      · obtain ⟨b, o, hcx⟩ := hcx
        obtain ⟨k, hk⟩ := s.exists_at hx
        exact ins_calm s s' i hnp ⟨b, o + k, CalmAt.child s hcx hk⟩
      · exact ins_calm s s' i hnp (hb n (i.anc_of hn hx) hnp)
    obtain ⟨h1, h2, h3⟩ := Mem.connect_fresh s' z' spoil S' hk (hmis h0 r hrp)
    refine ⟨h1, fun y hl hlt hdeep => ?_⟩
    by_cases hry : Anc g' r y
    · have hyr : r ≠ y := by
        rintro rfl
        rw [s'.leaf r hl] at hk
        exact hk rfl
      obtain ⟨e, A', B', hk', hey⟩ := Hier.Graph.Ins.child_above s' hry hyr
      have hpe : g'.parent e = some r := s'.parent_of hk'
      refine h3 e y hl hpe hey ?_
      by_cases hep : Anc g' e p
      · refine .inr ⟨hmis h0 e (i.anc_p.mp hep), fun c hpc hcy => ?_⟩
        refine hcalm c ((Anc.of_parent hpe).trans (Anc.of_parent hpc)) (fun hcp => ?_)
        exact hdeep e c hpe hpc hcp hcy
      · exact .inl (hcalm e (Anc.of_parent hpe) hep)
    · exact h2 y hl hlt hry

/-- Connecting after a removal, as `unlink_parameter` does it. -/
theorem del_connect (s : Skel g) (z : Sized g) (i : Ins g g' p x A B)
    (spoil : Nat → Nat → V) {m : Mem V} (S' : Sound g' m) {r : Id} (hr : g.parent r = none)
    (hrlt : r < g.next) (hrp : Anc g r p) (hb : ∀ n, Anc g' r n → Calm g' m n)
    (hmis : 0 < g.size x → ∀ n, Anc g n p → Misfit g m n) :
    Sound g (((m.connect spoil g p).connect spoil g p).connect spoil g r) ∧
    ∀ y, g.leaf y = true → y < g.next →
      (∀ e c, g.parent e = some r → g.parent c = some e → Anc g c p → c ≠ p → ¬ Anc g c y) →
      Keeps g m (((m.connect spoil g p).connect spoil g p).connect spoil g r) y := by
  have S := del_sound s z i S' hmis
  have hplt : p < g.next := by
    cases hrp with
    | refl => exact hrlt
    | step _ h => exact (s.alloc _ _ h).1
  rcases Nat.eq_zero_or_pos (g.size x) with h0 | h0
  · have hcr : Calm g m r := del_calm_zero s z i h0 (hb r .refl)
    have hcp : Calm g m p := del_calm_zero s z i h0 (hb p (i.anc_mono hrp))
    obtain ⟨S1, a1, k1⟩ := Mem.connect_settled s z spoil S hcp
    obtain ⟨S2, a2, k2⟩ := Mem.connect_settled s z spoil S1 (Calm.congr hcp a1)
    obtain ⟨S3, -, k3⟩ := Mem.connect_settled s z spoil S2 (Calm.congr (Calm.congr hcr a1) a2)
    exact ⟨S3, fun y hl hlt _ => ((k1 y hl hlt).trans (k2 y hl hlt)).trans (k3 y hl hlt)⟩
  · have hb' : ∀ n, Anc g r n → ¬ Anc g n p → Calm g m n := fun n hn hnp =>
      del_calm s i hnp (hb n (i.anc_mono hn))
    obtain ⟨S1, k1⟩ : Sound g (m.connect spoil g p) ∧
        ∀ y, g.leaf y = true → y < g.next → Keeps g m (m.connect spoil g p) y := by
      by_cases hk : g.kids p = []
      · rw [Mem.connect_nil spoil m hk]
        exact ⟨S, fun y _ _ => Keeps.refl m y⟩
      · obtain ⟨h1, h2, h3⟩ := Mem.connect_fresh s z spoil S hk (hmis h0 p .refl)
        refine ⟨h1, fun y hl hlt => ?_⟩
        by_cases hpy : Anc g p y
        · have hyp : p ≠ y := by
            rintro rfl
            exact hk (s.leaf p hl)
          obtain ⟨e, A', B', hk', hey⟩ := Hier.Graph.Ins.child_above s hpy hyp
          have hpe : g.parent e = some p := s.parent_of hk'
          exact h3 e y hl hpe hey
            (.inl (hb' e (hrp.trans (Anc.of_parent hpe)) (s.not_anc_parent hpe)))
        · exact h2 y hl hlt hpy
    have o1 : ∀ n, ¬ Anc g p n → (m.connect spoil g p).arr n = m.arr n ∧
        (m.connect spoil g p).owns n = m.owns n := fun n hn => Mem.connect_out s z spoil S.lo hn
    have c1 := Mem.connect_below s z spoil S.lo S.lf hplt (.refl : Anc g p p)
    generalize m.connect spoil g p = m1 at *
    obtain ⟨S2, -, k2⟩ := Mem.connect_settled s z spoil S1 c1
    have o2 : ∀ n, ¬ Anc g p n → (m1.connect spoil g p).arr n = m1.arr n ∧
        (m1.connect spoil g p).owns n = m1.owns n := fun n hn => Mem.connect_out s z spoil S1.lo hn
    have c2 := fun n hn => Mem.connect_below s z spoil S1.lo S1.lf hplt (n := n) hn
    generalize m1.connect spoil g p = m2 at *
    have hcalm : ∀ n, Anc g r n → (¬ Anc g n p ∨ n = p) → Calm g m2 n := by
      rintro n hn (hnp | rfl)
      · by_cases hpn : Anc g p n
        · exact c2 n hpn
        · refine Mem.Calm.transfer (hb' n hn hnp) (fun y k hy => ⟨hy, rfl, ?_⟩)
          have hpy : ¬ Anc g p y := by
            intro h
            rcases h.total (hy.anc s) with h1 | h1
            · exact hpn h1
            · exact hnp h1
          exact ⟨(o2 y hpy).1.trans (o1 y hpy).1, (o2 y hpy).2.trans (o1 y hpy).2⟩
      · exact c2 n .refl
    by_cases hpr : r = p
    · subst hpr
      obtain ⟨S3, -, k3⟩ := Mem.connect_settled s z spoil S2 (c2 r .refl)
      exact ⟨S3, fun y hl hlt _ => ((k1 y hl hlt).trans (k2 y hl hlt)).trans (k3 y hl hlt)⟩
    · have hmis2 : ∀ n, Anc g n p → n ≠ p → Misfit g m2 n := by
        intro n hn hne
        have hpn : ¬ Anc g p n := fun h => hne (s.anc_antisymm hn h)
        intro u hu
        exact hmis h0 n hn u ((Fits.congr ((o2 n hpn).1.trans (o1 n hpn).1)).mp hu)
      obtain ⟨e0, A0, B0, hk0, -⟩ := Hier.Graph.Ins.child_above s hrp hpr
      have hk : g.kids r ≠ [] := by rw [hk0]; simp
      obtain ⟨h1, h2, h3⟩ := Mem.connect_fresh s z spoil S2 hk (hmis2 r hrp hpr)
      refine ⟨h1, fun y hl hlt hdeep => ((k1 y hl hlt).trans (k2 y hl hlt)).trans ?_⟩
      by_cases hry : Anc g r y
      · have hyr : r ≠ y := by
          rintro rfl
          exact hk (s.leaf r hl)
        obtain ⟨e, A', B', hk', hey⟩ := Hier.Graph.Ins.child_above s hry hyr
        have hpe : g.parent e = some r := s.parent_of hk'
        refine h3 e y hl hpe hey ?_
        by_cases hep : Anc g e p
        · by_cases hne : e = p
          · exact .inl (hcalm e (Anc.of_parent hpe) (.inr hne))
          · refine .inr ⟨hmis2 e hep hne, fun c hpc hcy => ?_⟩
            refine hcalm c ((Anc.of_parent hpe).trans (Anc.of_parent hpc)) ?_
            by_cases hcp : Anc g c p
            · right
              by_contra hcne
              exact hdeep e c hpe hpc hcp hcne hcy
            · exact .inl hcp
        · exact .inl (hcalm e (Anc.of_parent hpe) (.inl hep))
      · exact h2 y hl hlt hry

end

end Paramz.Memory

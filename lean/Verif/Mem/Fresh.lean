import Verif.Mem.Shared

/-!
# Values when a hierarchy is connected, from states without stray sharing
-/

set_option linter.unusedSectionVars false

namespace Paramz.Memory

open Hier (Id Graph upd upd_same upd_ne)
open Hier.Graph (Anc At Skel Sized)

variable {V : Type} {g : Graph}

/-- Arrays contain elements only of the `Param`s below them; the arrays lie in buffers that have been
handed out. -/
structure Sound (g : Graph) (m : Mem V) : Prop where
  lo : LeafOwn g m
  lf : LeafFits V g m
  sep : ∀ n y B i, g.leaf y = true → Has g m n B i → Has g m y B i → Anc g n y
  bd : ∀ n v, m.arr n = some v → v.buf < m.next

/-- The same, the first part only for the objects in `N`. -/
structure SoundOn (N : Id → Prop) (g : Graph) (m : Mem V) : Prop where
  lo : LeafOwn g m
  lf : LeafFits V g m
  sep : ∀ n y B i, N n → N y → g.leaf y = true → Has g m n B i → Has g m y B i → Anc g n y
  bd : ∀ n v, m.arr n = some v → v.buf < m.next

theorem Sound.on {m : Mem V} (S : Sound g m) (N : Id → Prop) : SoundOn N g m :=
  ⟨S.lo, S.lf, fun n y B i _ _ => S.sep n y B i, S.bd⟩

theorem SoundOn.all {m : Mem V} (S : SoundOn (fun _ => True) g m) : Sound g m :=
  ⟨S.lo, S.lf, fun n y B i => S.sep n y B i trivial trivial, S.bd⟩

/-- The value of element `i` of the `Param` `y` is as before. -/
def Keeps (g : Graph) (m m' : Mem V) (y : Id) : Prop := ∀ i, i < g.size y → m'.read y i = m.read y i

theorem Keeps.refl (m : Mem V) (y : Id) : Keeps g m m y := fun _ _ => rfl

theorem Keeps.trans {m m' m'' : Mem V} {y : Id} (h1 : Keeps g m m' y) (h2 : Keeps g m' m'' y) :
    Keeps g m m'' y := fun i hi => (h2 i hi).trans (h1 i hi)

theorem Has.of_fits {m : Mem V} {y : Id} {v : View} (h : Fits g m y v) {i : Nat} (hi : i < g.size y) :
    Has g m y v.buf (v.off + i) := ⟨v, h.1, h.2, rfl, by omega, by rw [h.2]; omega⟩

theorem anc_of_leaf (s : Skel g) {y z : Id} (hl : g.leaf y = true) (h : Anc g y z) : y = z := by
  by_contra hne
  obtain ⟨e, A, B, hk, -⟩ := Hier.Graph.Ins.child_above s h hne
  rw [s.leaf y hl] at hk
  exact absurd hk (by simp)

/-- Two objects placed in one window: if they share an element and the second is a `Param`, it lies below
the first. -/
theorem placed_sep (s : Skel g) (z : Sized g) {r n y k j o i : Nat} (hn : At g r n k) (hy : At g r y j)
    (hl : g.leaf y = true) (h1 : o + k ≤ i ∧ i < o + k + g.size n)
    (h2 : o + j ≤ i ∧ i < o + j + g.size y) : Anc g n y := by
  by_contra hna
  by_cases hyn : Anc g y n
  · exact hna (by rw [anc_of_leaf s hl hyn]; exact .refl)
  · rcases hn.disjoint s z hy hna hyn with h | h <;> omega

namespace Mem

theorem read_eq {m : Mem V} {y : Id} {v : View} (h : m.arr y = some v) (i : Nat) :
    m.read y i = m.cell v.buf (v.off + i) := by
  unfold read; rw [view_eq h]

/-- The first round makes at most one new array besides that of `r`. -/
theorem prepared_one {m : Mem V} {r n e : Id} (hn : n ≠ r) (he : e ≠ r) (hne : n ≠ e)
    (h1 : (prepared g m r).arr n ≠ m.arr n) (h2 : (prepared g m r).arr e ≠ m.arr e) : False := by
  unfold prepared at h1 h2
  cases hk : g.kids r with
  | nil => rw [hk] at h1; exact h1 rfl
  | cons p L =>
    rw [hk] at h1 h2
    simp only at h1 h2
    rw [(ensure_ne hn).1] at h1
    rw [(ensure_ne he).1] at h2
    by_cases hnp : n = p
    · exact h2 (ensure_ne (fun h => hne (hnp.trans h.symm))).1
    · exact h1 (ensure_ne hnp).1

/-- Connecting an object whose array does not fit: it gets a new buffer. -/
theorem connect_freshOn (s : Skel g) (z : Sized g) (spoil : Nat → Nat → V) {m : Mem V} {N : Id → Prop}
    (S : SoundOn N g m) {r : Id} (hN : ∀ n, Anc g r n → N n) (hk : g.kids r ≠ [])
    (hr : ∀ u, ¬ Fits g m r u) :
    SoundOn N g (connect spoil g m r) ∧
    (∀ y, N y → g.leaf y = true → y < g.next → ¬ Anc g r y → Keeps g m (connect spoil g m r) y) ∧
    (∀ e y, g.leaf y = true → g.parent e = some r → Anc g e y →
      (Calm g m e ∨ ((∀ u, ¬ Fits g m e u) ∧ ∀ c, g.parent c = some e → Anc g c y → Calm g m c)) →
      Keeps g m (connect spoil g m r) y) := by
  obtain ⟨w', hw1', hw2', hw3', hw4', hw5', hw6'⟩ := connect_places s z spoil S.lo hk
  have hlf' := connect_fits s z spoil S.lo S.lf r
  obtain ⟨w, hw, lo', hnx, hcell, hcase, hothers⟩ := prepared_facts s S.lo hk
  rcases hcase with ⟨hf, -⟩ | ⟨-, hw1, hw2, hw3, -⟩
  · exact absurd hf (hr w)
  have hw4 : ∀ n v, n ≠ r → (prepared g m r).arr n = some v →
      v.buf ≠ w.buf ∧ v.buf < (prepared g m r).next := by
    intro n v hn hv
    rcases hothers n hn with ⟨h1, -⟩ | ⟨-, -, h1, h2, h3⟩
    · rw [h1] at hv
      have := S.bd n v hv
      omega
    · rw [h1] at hv
      cases hv
      have := h3 hr
      simp only
      omega
  have hhas : ∀ n B i, n ≠ r → B < m.next → Has g (prepared g m r) n B i → Has g m n B i := by
    rintro n B i hn hB ⟨v, h1, h2, h3, h4, h5⟩
    rcases hothers n hn with ⟨h6, -⟩ | ⟨-, -, h6, -⟩
    · rw [h6] at h1; exact ⟨v, h1, h2, h3, h4, h5⟩
    · rw [h6] at h1; cases h1
      simp only at h3
      omega
  have harr : ∀ n, n ≠ r → (g.leaf n = true ∨ ∃ v, Fits g m n v) →
      (prepared g m r).arr n = m.arr n ∧ (prepared g m r).owns n = m.owns n := by
    intro n hn h
    rcases hothers n hn with h6 | ⟨h6, h7, -⟩
    · exact h6
    · rcases h with h | ⟨v, h⟩
      · rw [h] at h6; cases h6
      · exact absurd h (h7 v)
  have post := connect_post s z spoil lo' hw
  have hconn := connect_prepared s spoil m r
  have hww : w' = w := by
    have h1 := (post.out r (fun c hc => s.not_anc_parent ((s.mem_iff _ _).mp hc))).1
    rw [← hconn, hw.1, hw1'.1] at h1
    exact Option.some.inj h1
  subst hww
  have hlr := s.kids_not_leaf ((s.mem_iff _ r).mp (List.head_mem hk))
  refine ⟨⟨hw4', hlf', ?_, ?_⟩, ?_, ?_⟩
  · -- separation
    rintro n y B i hNn hNy hly ⟨v, h1, h2, h3, h4, h5⟩ ⟨u, k1, k2, k3, k4, k5⟩
    by_cases hy : Anc g r y
    · have hyr : y ≠ r := by rintro rfl; rw [hlr] at hly; cases hly
      obtain ⟨j, hj⟩ := s.exists_at hy
      rw [(hw2' y j hj hyr).1] at k1
      cases k1
      simp only at k2 k3 k4 k5
      by_cases hn : Anc g r n
      · by_cases hnr : n = r
        · subst hnr; exact hy
        · obtain ⟨k, hk'⟩ := s.exists_at hn
          rw [(hw2' n k hk' hnr).1] at h1
          cases h1
          simp only at h2 h3 h4 h5
          exact placed_sep s z hk' hj hly ⟨h4, h5⟩ ⟨k4, k5⟩
      · rw [(hw3' n hn).1] at h1
        have := S.bd n v h1
        omega
    · rw [(hw3' y hy).1] at k1
      have hub := S.bd y u k1
      by_cases hn : Anc g r n
      · exfalso
        by_cases hnr : n = r
        · subst hnr
          rw [hw1'.1] at h1
          cases h1
          omega
        · obtain ⟨k, hk'⟩ := s.exists_at hn
          rw [(hw2' n k hk' hnr).1] at h1
          cases h1
          simp only at h3
          omega
      · rw [(hw3' n hn).1] at h1
        exact S.sep n y B i hNn hNy hly ⟨v, h1, h2, h3, h4, h5⟩ ⟨u, k1, k2, k3, k4, k5⟩
  · -- bounds
    intro n v hv
    have hwb : w'.buf < (connect spoil g m r).next := by
      rw [hconn]; exact lt_of_lt_of_le hw2 post.next
    by_cases hn : Anc g r n
    · by_cases hnr : n = r
      · subst hnr
        rw [hw1'.1] at hv
        cases hv; exact hwb
      · obtain ⟨k, hk'⟩ := s.exists_at hn
        rw [(hw2' n k hk' hnr).1] at hv
        cases hv; exact hwb
    · rw [(hw3' n hn).1] at hv
      exact lt_of_lt_of_le (S.bd n v hv) hw5'
  · -- `Param`s elsewhere
    intro y hNy hly hlt hy i hi
    obtain ⟨v, hv⟩ := S.lf y hlt hly
    rw [read_eq ((hw3' y hy).1.trans hv.1), read_eq hv.1, hconn, ← hcell]
    have hvb := S.bd y v hv.1
    apply post.cells _ _ (by omega)
    · rintro ⟨h, -⟩; omega
    · rintro ⟨h, -⟩; omega
    · intro c hc n hn _ hh
      have hnr : n ≠ r := by
        rintro rfl; exact s.not_anc_parent ((s.mem_iff _ _).mp hc) hn
      have := S.sep n y _ _ (hN n ((Anc.of_parent ((s.mem_iff _ _).mp hc)).trans hn)) hNy hly
        (hhas n _ _ hnr hvb hh) (Has.of_fits hv hi)
      exact hy (((Anc.of_parent ((s.mem_iff _ _).mp hc)).trans hn).trans this)
  · -- `Param`s below
    intro e y hly hpe hey hsrc i hi
    have hry : Anc g r y := (Anc.of_parent hpe).trans hey
    have hyr : y ≠ r := by rintro rfl; rw [hlr] at hly; cases hly
    have hylt : y < g.next := by
      cases hry with
      | refl => exact absurd rfl hyr
      | step _ hp => exact (s.alloc _ _ hp).1
    obtain ⟨v, hv⟩ := S.lf y hylt hly
    have hvb := S.bd y v hv.1
    obtain ⟨k, hke⟩ := s.exists_at (Anc.of_parent hpe)
    obtain ⟨j, hjy⟩ := s.exists_at hey
    have harr' := (hw2' y (k + j) (hke.trans hjy) hyr).1
    rw [read_eq harr', read_eq hv.1, hconn, ← hcell]
    simp only
    rw [show w'.off + (k + j) + i = w'.off + k + (j + i) by omega]
    have hv0 : Fits g (prepared g m r) y v :=
      (Fits.congr (harr y hyr (.inl hly)).1).mpr hv
    have hbelow : ∀ n, Anc g e n → n ≠ r := by
      rintro n hn rfl; exact s.not_anc_parent hpe hn
    have hcalm : ∀ n, n ≠ r → ¬ Anc g n r → Calm g m n → ∃ b o, CalmAt g (prepared g m r) n b o := by
      rintro n hn hnr ⟨b, o, h⟩
      refine ⟨b, o, fun q l hq hpos => ?_⟩
      have hqr : q ≠ r := by rintro rfl; exact hnr (hq.anc s)
      obtain ⟨h1, h2⟩ := h q l hq hpos
      obtain ⟨h3, h4⟩ := harr q hqr (.inr ⟨_, h1, rfl⟩)
      rw [h3, h4]; exact ⟨h1, h2⟩
    have hsepm : ∀ n, Anc g r n → n ≠ r → Has g (prepared g m r) n v.buf (v.off + i) → Anc g n y :=
      fun n hrn hn hh => S.sep n y _ _ (hN n hrn) (hN y hry) hly (hhas n _ _ hn hvb hh) (Has.of_fits hv hi)
    apply connect_value s z spoil lo' hw hw2 (fun n v' _ hn h => hw4 n v' hn h) hpe hke hly hjy hv0 hi
    · intro n hrn hen _ hnr hh
      have hny := hsepm n hrn hnr hh
      rcases hny.total hey with h1 | h1
      · -- `n` is between `r` and `e`
        cases h1 with
        | refl => exact hen .refl
        | step ha hpar =>
          rw [hpe] at hpar
          cases hpar
          exact hnr (s.anc_antisymm ha hrn)
      · exact hen h1
    · rcases hsrc with hc | ⟨hnf, hc⟩
      · exact .inl (hcalm e (hbelow e .refl) (s.not_anc_parent hpe) hc)
      · refine .inr ⟨?_, ?_⟩
        · intro u hu n v' hn hne hv'
          rcases hothers e (hbelow e .refl) with ⟨h1, -⟩ | ⟨-, -, h1, -⟩
          · exact absurd ((Fits.congr h1).mp hu) (hnf u)
          · have hub : u = ⟨m.next, 0, g.size e⟩ := by
              have := hu.1; rw [h1] at this; exact (Option.some.inj this).symm
            rcases hothers n (hbelow n hn) with ⟨h2, -⟩ | ⟨-, -, h2, -⟩
            · rw [h2] at hv'
              have := S.bd n v' hv'
              rw [hub]; simp only; omega
            · -- only one object below `r` gets a new array in the first round
              exfalso
              exact prepared_one (hbelow n hn) (hbelow e .refl) hne
                (fun h => by
                  rw [h] at h2
                  have := S.bd n _ h2
                  simp only at this; omega)
                (fun h => by
                  rw [h] at h1
                  have := S.bd e _ h1
                  simp only at this; omega)
        · intro c hpc hcy
          refine ⟨hcalm c (hbelow c (Anc.of_parent hpc)) ?_ (hc c hpc hcy), ?_⟩
          · exact fun h => s.not_anc_parent hpe ((Anc.of_parent hpc).trans h)
          · intro f hpf hne n hn _ hh
            have hny := hsepm n ((Anc.of_parent hpe).trans ((Anc.of_parent hpf).trans hn))
              (hbelow n ((Anc.of_parent hpf).trans hn)) hh
            exact sibling_disjoint s hpc hpf (fun h => hne h.symm) hcy (hn.trans hny)

theorem connect_fresh (s : Skel g) (z : Sized g) (spoil : Nat → Nat → V) {m : Mem V} (S : Sound g m)
    {r : Id} (hk : g.kids r ≠ []) (hr : ∀ u, ¬ Fits g m r u) :
    Sound g (connect spoil g m r) ∧
    (∀ y, g.leaf y = true → y < g.next → ¬ Anc g r y → Keeps g m (connect spoil g m r) y) ∧
    (∀ e y, g.leaf y = true → g.parent e = some r → Anc g e y →
      (Calm g m e ∨ ((∀ u, ¬ Fits g m e u) ∧ ∀ c, g.parent c = some e → Anc g c y → Calm g m c)) →
      Keeps g m (connect spoil g m r) y) := by
  obtain ⟨h1, h2, h3⟩ := connect_freshOn s z spoil (S.on fun _ => True) (fun _ _ => trivial) hk hr
  exact ⟨h1.all, fun y => h2 y trivial, h3⟩

/-- Connecting an object below which everything is in place changes no array that has elements, and no
element. -/
theorem connect_settledOn (s : Skel g) (z : Sized g) (spoil : Nat → Nat → V) {m : Mem V} {N : Id → Prop}
    (S : SoundOn N g m) {r : Id} (hc : Calm g m r) :
    SoundOn N g (connect spoil g m r) ∧
    (∀ n, 0 < g.size n → (connect spoil g m r).arr n = m.arr n ∧
      (connect spoil g m r).owns n = m.owns n) ∧
    (∀ y, g.leaf y = true → y < g.next → Keeps g m (connect spoil g m r) y) := by
  by_cases hk : g.kids r = []
  · rw [connect_nil spoil m hk]
    exact ⟨S, fun _ _ => ⟨rfl, rfl⟩, fun y _ _ => Keeps.refl m y⟩
  obtain ⟨w', hw1', hw2', hw3', hw4', hw5', hw6'⟩ := connect_places s z spoil S.lo hk
  have hlf' := connect_fits s z spoil S.lo S.lf r
  obtain ⟨b, o, hc⟩ := hc
  have harr' : ∀ n, 0 < g.size n → (connect spoil g m r).arr n = m.arr n ∧
      (connect spoil g m r).owns n = m.owns n := by
    intro n hn
    by_cases ha : Anc g r n
    · obtain ⟨k, hk'⟩ := s.exists_at ha
      have hwin := hk'.window s z
      obtain ⟨h1, -⟩ := hc r 0 .refl (by omega)
      obtain ⟨h2, h2'⟩ := hc n k hk' hn
      obtain ⟨hww, how⟩ : w' = ⟨b, o + 0, g.size r⟩ ∧ (connect spoil g m r).owns r = m.owns r := by
        rcases hw6' with ⟨h3, h4⟩ | ⟨h3, -⟩
        · exact ⟨Fits.unique h3 ⟨h1, rfl⟩, h4⟩
        · exact absurd ⟨h1, rfl⟩ (h3 _)
      by_cases hne : n = r
      · subst hne; rw [hw1'.1, hww, h1]; exact ⟨rfl, how⟩
      · rw [(hw2' n k hk' hne).1, (hw2' n k hk' hne).2, hww, h2, h2' hne]
        exact ⟨rfl, rfl⟩
    · exact hw3' n ha
  have harr := fun n hn => (harr' n hn).1
  have hcell : ∀ B i, B < m.next → (connect spoil g m r).cell B i = m.cell B i := by
    intro B i hB
    by_cases hz : 0 < g.size r
    · obtain ⟨h1, -⟩ := hc r 0 .refl hz
      exact connect_calm s z spoil S.lo (b := b) (o := o) ⟨h1, rfl⟩ hc B i hB
    · obtain ⟨w, hw, lo', hnx, hcell, hcase, hothers⟩ := prepared_facts s S.lo hk
      have post := connect_post s z spoil lo' hw
      have hlr := s.kids_not_leaf ((s.mem_iff _ r).mp (List.head_mem hk))
      have hzz := z r hlr
      rw [connect_prepared s, ← hcell]
      refine post.cells B i (by omega) (by omega) (by omega) ?_
      rintro c hc' n hn - ⟨v, h1, h2, h3, h4, h5⟩
      obtain ⟨k, hk'⟩ := s.exists_at ((Anc.of_parent ((s.mem_iff _ _).mp hc')).trans hn)
      have hwin := hk'.window s z
      omega
  have hhas : ∀ n B i, Has g (connect spoil g m r) n B i → Has g m n B i := by
    rintro n B i ⟨v, h1, h2, h3, h4, h5⟩
    rw [harr n (by omega)] at h1
    exact ⟨v, h1, h2, h3, h4, h5⟩
  refine ⟨⟨hw4', hlf', ?_, ?_⟩, harr', ?_⟩
  · intro n y B i hn hy hl h1 h2
    exact S.sep n y B i hn hy hl (hhas _ _ _ h1) (hhas _ _ _ h2)
  · have hwb : w'.buf < (connect spoil g m r).next := by
      rcases hw6' with ⟨h3, -⟩ | ⟨-, -, h3, -⟩
      · exact lt_of_lt_of_le (S.bd _ _ h3.1) hw5'
      · exact h3
    intro n v hv
    by_cases hn : Anc g r n
    · by_cases hnr : n = r
      · subst hnr
        rw [hw1'.1] at hv
        cases hv; exact hwb
      · obtain ⟨k, hk'⟩ := s.exists_at hn
        rw [(hw2' n k hk' hnr).1] at hv
        cases hv; exact hwb
    · rw [(hw3' n hn).1] at hv
      exact lt_of_lt_of_le (S.bd n v hv) hw5'
  · intro y hl hlt i hi
    obtain ⟨v, hv⟩ := S.lf y hlt hl
    rw [read_eq ((harr y (by omega)).trans hv.1), read_eq hv.1]
    exact hcell _ _ (S.bd y v hv.1)

theorem connect_settled (s : Skel g) (z : Sized g) (spoil : Nat → Nat → V) {m : Mem V} (S : Sound g m)
    {r : Id} (hc : Calm g m r) :
    Sound g (connect spoil g m r) ∧
    (∀ n, 0 < g.size n → (connect spoil g m r).arr n = m.arr n ∧
      (connect spoil g m r).owns n = m.owns n) ∧
    (∀ y, g.leaf y = true → y < g.next → Keeps g m (connect spoil g m r) y) := by
  obtain ⟨h1, h2, h3⟩ := connect_settledOn s z spoil (S.on fun _ => True) hc
  exact ⟨h1.all, h2, h3⟩

end Mem

end Paramz.Memory

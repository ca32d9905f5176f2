import Verif.Mem.PickleModel
import Verif.Mem.CopyProps
import Verif.Hier.PickleProps

/-!
# Loading: memory
-/

set_option linter.unusedSectionVars false

namespace Paramz.Memory

open Hier (Id Graph Heap upd upd_same upd_ne)
open Hier.Graph (Skel Sized At Anc)

namespace Mem

variable {V : Type} {g : Graph}

/-- Connecting objects in turn. -/
def build (spoil : Nat → Nat → V) (g : Graph) (L : List Id) (m : Mem V) : Mem V :=
  L.foldl (fun m y => if g.leaf y then m else m.connect spoil g y) m

/-- Every object of the list comes once, after its children. -/
def Order (g : Graph) : List Id → List Id → Prop
  | _, [] => True
  | b, y :: L => y ∉ b ∧ (∀ c ∈ g.kids y, c ∈ b) ∧ Order g (y :: b) L

/-- In the middle: what is built shares memory, what is not has no array. -/
structure Half (N : Id → Prop) (g : Graph) (b : List Id) (m : Mem V) : Prop where
  sound : SoundOn N g m
  down : ∀ y ∈ b, ∀ c ∈ g.kids y, c ∈ b
  calm : ∀ y ∈ b, Calm g m y
  none : ∀ y, N y → y ∉ b → g.leaf y = false → m.arr y = none

theorem down_anc (s : Skel g) {b : List Id} (hb : ∀ y ∈ b, ∀ c ∈ g.kids y, c ∈ b) {y z : Id}
    (h : Anc g y z) (hy : y ∈ b) : z ∈ b := by
  induction h with
  | refl => exact hy
  | step _ hp ih => exact hb _ ih _ ((s.mem_iff _ _).mpr hp)

theorem build_half (s : Skel g) (z : Sized g) (spoil : Nat → Nat → V) {N : Id → Prop}
    (hN : ∀ y c, N y → g.parent c = some y → N c) :
    ∀ (L b : List Id) (m : Mem V), Order g b L → (∀ y ∈ L, N y ∧ y < g.next) → Half N g b m →
      Half N g (L.reverse ++ b) (build spoil g L m) ∧
      ∀ i, N i → g.leaf i = true → i < g.next → Keeps g m (build spoil g L m) i
  | [], b, m, _, _, hm => ⟨hm, fun i _ _ _ => Keeps.refl m i⟩
  | y :: L, b, m, hL, hLN, hm => by
    obtain ⟨hyb, hkb, hL'⟩ := hL
    obtain ⟨hyN, hylt⟩ := hLN y (by simp)
    have hNa : ∀ i, Anc g y i → N i := by
      intro i hi
      induction hi with
      | refl => exact hyN
      | step _ hp ih => exact hN _ _ ih hp
    have hbelow : ∀ i, Anc g y i → i = y ∨ i ∈ b := by
      intro i hi
      by_cases e : y = i
      · exact .inl e.symm
      · obtain ⟨c, A, B, hk, hc⟩ := Hier.Graph.Ins.child_above s hi e
        exact .inr (down_anc s hm.down hc (hkb c (by rw [hk]; simp)))
    have hdown : ∀ i ∈ y :: b, ∀ c ∈ g.kids i, c ∈ y :: b := by
      intro i hi c hc
      rcases List.mem_cons.mp hi with rfl | hi
      · exact List.mem_cons_of_mem _ (hkb c hc)
      · exact List.mem_cons_of_mem _ (hm.down i hi c hc)
    -- one step
    have step : Half N g (y :: b) (if g.leaf y then m else m.connect spoil g y) ∧
        ∀ i, N i → g.leaf i = true → i < g.next →
          Keeps g m (if g.leaf y then m else m.connect spoil g y) i := by
      cases hl : g.leaf y with
      | true =>
        rw [if_pos rfl]
        refine ⟨⟨hm.sound, hdown, ?_, ?_⟩, fun i _ _ _ => Keeps.refl m i⟩
        · intro i hi
          rcases List.mem_cons.mp hi with rfl | hi
          · obtain ⟨v, hv⟩ := hm.sound.lf i hylt hl
            exact calm_leaf s hl hv
          · exact hm.calm i hi
        · exact fun i h1 h2 h3 => hm.none i h1 (fun h => h2 (List.mem_cons_of_mem _ h)) h3
      | false =>
        rw [if_neg (by simp)]
        have hnone : m.arr y = none := hm.none y hyN hyb hl
        have hcalm : ∀ i, i ∈ y :: b → Calm g (m.connect spoil g y) i := by
          intro i hi
          by_cases ha : Anc g y i
          · exact connect_below s z spoil hm.sound.lo hm.sound.lf hylt ha
          · rcases List.mem_cons.mp hi with rfl | hib
            · exact absurd .refl ha
            · refine calm_others s (hm.calm i hib) (fun j hj => ?_)
              refine connect_out s z spoil hm.sound.lo (fun hyj => ?_)
              rcases hj.total hyj with h1 | h1
              · exact hyb (down_anc s hm.down h1 hib)
              · exact ha h1
        have hnone' : ∀ i, N i → i ∉ y :: b → g.leaf i = false →
            (m.connect spoil g y).arr i = none := by
          intro i h1 h2 h3
          have hna : ¬ Anc g y i := fun h => by
            rcases hbelow i h with rfl | h4
            · exact h2 (by simp)
            · exact h2 (List.mem_cons_of_mem _ h4)
          rw [(connect_out s z spoil hm.sound.lo hna).1]
          exact hm.none i h1 (fun h => h2 (List.mem_cons_of_mem _ h)) h3
        by_cases hk : g.kids y = []
        · have e := connect_nil spoil m hk
          refine ⟨⟨by rw [e]; exact hm.sound, hdown, hcalm, hnone'⟩, fun i _ _ _ => ?_⟩
          rw [e]; exact Keeps.refl m i
        · obtain ⟨c1, c2, c3⟩ := connect_freshOn s z spoil hm.sound hNa hk
            (fun u hu => by have := hu.1; rw [hnone] at this; cases this)
          refine ⟨⟨c1, hdown, hcalm, hnone'⟩, fun i h1 h2 h3 => ?_⟩
          by_cases ha : Anc g y i
          · have hne : y ≠ i := by rintro rfl; rw [hl] at h2; cases h2
            obtain ⟨e, A, B, hk', he⟩ := Hier.Graph.Ins.child_above s ha hne
            have hpe := s.parent_of hk'
            exact c3 e i h2 hpe he (.inl (hm.calm e (hkb e ((s.mem_iff _ _).mpr hpe))))
          · exact c2 i h1 h2 h3 ha
    obtain ⟨h1, h2⟩ := build_half s z spoil hN L (y :: b) _ hL'
      (fun i hi => hLN i (by simp [hi])) step.1
    refine ⟨?_, fun i a1 a2 a3 => (step.2 i a1 a2 a3).trans (h2 i a1 a2 a3)⟩
    rw [List.reverse_cons, List.append_assoc]
    exact h1

/-! ### Arrays that own their memory

`m'` is `m`, except that some `Param`s own memory that nothing else uses. `P`: the buffers that have been
freed because of that; they are not used any more. -/

/-- See above. `lo`: where the memory of such `Param`s begins. -/
structure Shade (P : Nat → Prop) (lo : Nat) (g : Graph) (m m' : Mem V) : Prop where
  arr : m'.arr = m.arr
  next : m'.next = m.next
  bad : m'.bad = m.bad
  cell : ∀ b i, ¬ P b → m'.cell b i = m.cell b i
  freed : ∀ b, ¬ P b → m'.freed b = m.freed b
  used : ∀ n, ¬ P (m.view n).buf
  range : ∀ b, P b → lo ≤ b ∧ b < m.next
  owns : ∀ n, m'.owns n = m.owns n ∨ (g.leaf n = true ∧ m'.owns n = true ∧ m.owns n = false ∧
    (∀ k, k ≠ n → (m.view k).buf ≠ (m.view n).buf) ∧ lo ≤ (m.view n).buf ∧ (m.view n).buf < m.next)

/-- Buffer `b` is not the memory of such a `Param`. -/
def Open (P : Nat → Prop) (m m' : Mem V) (b : Nat) : Prop :=
  ¬ P b ∧ ∀ n, m'.owns n ≠ m.owns n → (m.view n).buf ≠ b

namespace Shade

variable {P : Nat → Prop} {lo : Nat} {m m' : Mem V} {spoil : Nat → Nat → V}

theorem view (h : Shade P lo g m m') (n : Id) : m'.view n = m.view n := by
  unfold Mem.view; rw [h.arr]

theorem read (h : Shade P lo g m m') (n : Id) (i : Nat) : m'.read n i = m.read n i := by
  unfold Mem.read; rw [h.view]; exact h.cell _ _ (h.used n)

theorem alloc (h : Shade P lo g m m') {x : Id} (hx : g.leaf x = false) (k : Nat) :
    Shade P lo g (m.alloc x k) (m'.alloc x k) := by
  have hv : ∀ n, n ≠ x → (m.alloc x k).view n = m.view n := by
    intro n hn
    show ((upd m.arr x _ n).getD _) = _
    rw [upd_ne _ _ hn]; rfl
  have hvx : ((m.alloc x k).view x).buf = m.next := by
    show ((upd m.arr x _ x).getD _).buf = _
    rw [upd_same]; rfl
  refine ⟨?_, ?_, h.bad, h.cell, h.freed, ?_, ?_, ?_⟩
  · show upd m'.arr x _ = upd m.arr x _
    rw [h.arr, h.next]
  · show m'.next + 1 = m.next + 1
    rw [h.next]
  · intro n
    by_cases hn : n = x
    · subst hn; rw [hvx]; exact fun hp => absurd (h.range _ hp).2 (Nat.lt_irrefl _)
    · rw [hv n hn]; exact h.used n
  · exact fun b hb => ⟨(h.range b hb).1, Nat.lt_succ_of_lt (h.range b hb).2⟩
  · intro n
    by_cases hn : n = x
    · left
      subst hn
      show upd m'.owns n true n = upd m.owns n true n
      rw [upd_same, upd_same]
    · rw [hv n hn]
      show upd m'.owns x true n = upd m.owns x true n ∨ _ ∧ upd m'.owns x true n = true ∧
        upd m.owns x true n = false ∧ _
      rw [upd_ne _ _ hn, upd_ne _ _ hn]
      refine (h.owns n).imp id (fun ⟨a, b, c, d, e, f⟩ => ⟨a, b, c, fun j hj => ?_, e, Nat.lt_succ_of_lt f⟩)
      by_cases hj' : j = x
      · subst hj'; rw [hvx]; exact (Nat.ne_of_lt f).symm
      · rw [hv j hj']; exact d j hj

theorem ensure (h : Shade P lo g m m') (x : Id) : Shade P lo g (m.ensure g x) (m'.ensure g x) := by
  unfold Mem.ensure
  cases hl : g.leaf x with
  | true => exact h
  | false =>
    simp only [Bool.false_eq_true, if_false]
    rw [h.arr]
    cases m.arr x with
    | none => exact h.alloc hl _
    | some v =>
      simp only []
      split
      · exact h
      · exact h.alloc hl _

theorem assign (h : Shade P lo g m m') (x : Id) (k : Nat) (c : Id) (n : Nat) :
    Shade P lo g (m.assign x k c n) (m'.assign x k c n) := by
  refine ⟨h.arr, h.next, ?_, ?_, h.freed, h.used, h.range, h.owns⟩
  · show (m'.bad || (decide (0 < n) && m'.freed (m'.view c).buf)) =
      (m.bad || (decide (0 < n) && m.freed (m.view c).buf))
    rw [h.bad, h.view, h.freed _ (h.used c)]
  · intro b i hb
    show (if b = (m'.view x).buf ∧ (m'.view x).off + k ≤ i ∧ i < (m'.view x).off + k + n
      then m'.cell (m'.view c).buf ((m'.view c).off + (i - ((m'.view x).off + k))) else m'.cell b i) =
      (if b = (m.view x).buf ∧ (m.view x).off + k ≤ i ∧ i < (m.view x).off + k + n
      then m.cell (m.view c).buf ((m.view c).off + (i - ((m.view x).off + k))) else m.cell b i)
    rw [h.view, h.view, h.cell _ _ (h.used c), h.cell b i hb]

theorem rebind (h : Shade P lo g m m') {b o k : Nat} (hb : Open P m m' b) (c : Id) :
    ∃ P', Shade P' lo g (m.rebind spoil c ⟨b, o, k⟩) (m'.rebind spoil c ⟨b, o, k⟩) ∧
      Open P' (m.rebind spoil c ⟨b, o, k⟩) (m'.rebind spoil c ⟨b, o, k⟩) b := by
  have hv : ∀ n, n ≠ c → (m.rebind spoil c ⟨b, o, k⟩).view n = m.view n := by
    intro n hn
    show ((upd m.arr c _ n).getD _) = _
    rw [upd_ne _ _ hn]; rfl
  have hvc : ((m.rebind spoil c ⟨b, o, k⟩).view c).buf = b := by
    show ((upd m.arr c _ c).getD _).buf = _
    rw [upd_same]; rfl
  have hoc : (m.rebind spoil c ⟨b, o, k⟩).owns c = false := upd_same _ _ _
  have hoc' : (m'.rebind spoil c ⟨b, o, k⟩).owns c = false := upd_same _ _ _
  have hon : ∀ n, n ≠ c → (m.rebind spoil c ⟨b, o, k⟩).owns n = m.owns n := fun n hn => upd_ne _ _ hn
  have hon' : ∀ n, n ≠ c → (m'.rebind spoil c ⟨b, o, k⟩).owns n = m'.owns n := fun n hn => upd_ne _ _ hn
  have harr : (m'.rebind spoil c ⟨b, o, k⟩).arr = (m.rebind spoil c ⟨b, o, k⟩).arr := by
    show upd m'.arr c _ = upd m.arr c _
    rw [h.arr]
  have howns : ∀ n, (m'.rebind spoil c ⟨b, o, k⟩).owns n = (m.rebind spoil c ⟨b, o, k⟩).owns n ∨
      (g.leaf n = true ∧ (m'.rebind spoil c ⟨b, o, k⟩).owns n = true ∧
        (m.rebind spoil c ⟨b, o, k⟩).owns n = false ∧
        (∀ j, j ≠ n → ((m.rebind spoil c ⟨b, o, k⟩).view j).buf ≠
          ((m.rebind spoil c ⟨b, o, k⟩).view n).buf) ∧
        lo ≤ ((m.rebind spoil c ⟨b, o, k⟩).view n).buf ∧
        ((m.rebind spoil c ⟨b, o, k⟩).view n).buf < m.next) := by
    intro n
    by_cases hn : n = c
    · subst hn; left; rw [hoc, hoc']
    · rw [hon n hn, hon' n hn, hv n hn]
      refine (h.owns n).imp id (fun ⟨a1, a2, a3, a4, a5, a6⟩ => ⟨a1, a2, a3, fun j hj => ?_, a5, a6⟩)
      by_cases hj' : j = c
      · subst hj'
        rw [hvc]
        exact (hb.2 n (by rw [a2, a3]; simp)).symm
      · rw [hv j hj']; exact a4 j hj
  have hopen : ∀ n, (m'.rebind spoil c ⟨b, o, k⟩).owns n ≠ (m.rebind spoil c ⟨b, o, k⟩).owns n →
      ((m.rebind spoil c ⟨b, o, k⟩).view n).buf ≠ b := by
    intro n hn
    by_cases hnc : n = c
    · subst hnc; rw [hoc, hoc'] at hn; exact absurd rfl hn
    · rw [hv n hnc]
      rw [hon n hnc, hon' n hnc] at hn
      exact hb.2 n hn
  rcases h.owns c with hc | ⟨-, hc1, hc2, hc3, hc4, hc5⟩
  · refine ⟨P, ⟨harr, h.next, h.bad, ?_, ?_, ?_, h.range, howns⟩, hb.1, hopen⟩
    · intro B i hB
      show (if m'.owns c = true ∧ B = (m'.view c).buf ∧ (m'.view c).off ≤ i ∧
          i < (m'.view c).off + (m'.view c).len then spoil B i else m'.cell B i) =
        (if m.owns c = true ∧ B = (m.view c).buf ∧ (m.view c).off ≤ i ∧
          i < (m.view c).off + (m.view c).len then spoil B i else m.cell B i)
      rw [h.view, hc, h.cell B i hB]
    · intro B hB
      show (if m'.owns c then upd m'.freed (m'.view c).buf true else m'.freed) B =
        (if m.owns c then upd m.freed (m.view c).buf true else m.freed) B
      rw [h.view, hc]
      split
      · by_cases e : B = (m.view c).buf
        · subst e; rw [upd_same, upd_same]
        · rw [upd_ne _ _ e, upd_ne _ _ e]; exact h.freed B hB
      · exact h.freed B hB
    · intro n
      by_cases hn : n = c
      · subst hn; rw [hvc]; exact hb.1
      · rw [hv n hn]; exact h.used n
  · have hbc : (m.view c).buf ≠ b := hb.2 c (by rw [hc1, hc2]; simp)
    refine ⟨fun B => P B ∨ B = (m.view c).buf, ⟨harr, h.next, h.bad, ?_, ?_, ?_, ?_, howns⟩,
      ?_, hopen⟩
    · intro B i hB
      push Not at hB
      show (if m'.owns c = true ∧ B = (m'.view c).buf ∧ (m'.view c).off ≤ i ∧
          i < (m'.view c).off + (m'.view c).len then spoil B i else m'.cell B i) =
        (if m.owns c = true ∧ B = (m.view c).buf ∧ (m.view c).off ≤ i ∧
          i < (m.view c).off + (m.view c).len then spoil B i else m.cell B i)
      rw [h.view, if_neg (fun e => hB.2 e.2.1), if_neg (fun e => hB.2 e.2.1), h.cell B i hB.1]
    · intro B hB
      push Not at hB
      show (if m'.owns c then upd m'.freed (m'.view c).buf true else m'.freed) B =
        (if m.owns c then upd m.freed (m.view c).buf true else m.freed) B
      rw [h.view, hc1, hc2, if_pos rfl, if_neg (by simp), upd_ne _ _ hB.2, h.freed B hB.1]
    · intro n
      by_cases hn : n = c
      · subst hn; rw [hvc]
        rintro (h1 | h1)
        · exact hb.1 h1
        · exact hbc h1.symm
      · rw [hv n hn]
        rintro (h1 | h1)
        · exact h.used n h1
        · exact hc3 n hn h1
    · rintro B (h1 | rfl)
      · exact h.range B h1
      · exact ⟨hc4, hc5⟩
    · rintro (h1 | h1)
      · exact hb.1 h1
      · exact hbc h1.symm

theorem open_of_node (h : Shade P lo g m m') {r : Id} (hl : g.leaf r = false) :
    Open P m m' (m.view r).buf := by
  refine ⟨h.used r, fun n hn => ?_⟩
  rcases h.owns n with h1 | ⟨h1, -, -, h2, -⟩
  · exact absurd h1 hn
  · exact (h2 r (by rintro rfl; rw [hl] at h1; cases h1)).symm

end Shade

/-- Related memories, and `b` is not the memory of a `Param` that owns its memory in one only. -/
def Rel (lo : Nat) (g : Graph) (b : Nat) (m m' : Mem V) : Prop :=
  ∃ P, Shade P lo g m m' ∧ Open P m m' b

theorem Rel.ensure {lo b : Nat} {m m' : Mem V} (h : Rel lo g b m m') (x : Id) :
    Rel lo g b (m.ensure g x) (m'.ensure g x) := by
  obtain ⟨P, h1, h2, h4⟩ := h
  have h5 := h1.ensure x
  refine ⟨P, h5, h2, fun n hn => ?_⟩
  have hne : ¬ (m.ensure g x).view n ≠ m.view n ∨ n = x := by
    by_cases hnx : n = x
    · exact .inr hnx
    · left
      unfold Mem.view
      rw [(ensure_ne hnx).1]; simp
  rcases hne with hne | rfl
  · rw [not_not.mp hne]
    apply h4
    intro e
    apply hn
    by_cases hnx : n = x
    · subst hnx
      unfold Mem.ensure
      split
      · exact e
      · rw [h1.arr]
        cases m.arr n with
        | none => show upd m'.owns n true n = upd m.owns n true n; rw [upd_same, upd_same]
        | some v =>
          simp only []
          split
          · exact e
          · show upd m'.owns n true n = upd m.owns n true n; rw [upd_same, upd_same]
    · rw [(ensure_ne hnx).2, (ensure_ne hnx).2]; exact e
  · rcases h5.owns n with h6 | ⟨h6, -⟩
    · exact absurd h6 hn
    · rw [ensure_leaf h6] at hn ⊢
      rw [ensure_leaf h6] at hn
      exact h4 n hn

theorem Rel.assign {lo b : Nat} {m m' : Mem V} (h : Rel lo g b m m') (x : Id) (k : Nat) (c : Id) (n : Nat) :
    Rel lo g b (m.assign x k c n) (m'.assign x k c n) := by
  obtain ⟨P, h1, h2⟩ := h
  exact ⟨P, h1.assign x k c n, h2⟩

theorem Rel.rebind {lo b o k : Nat} {spoil : Nat → Nat → V} {m m' : Mem V} (h : Rel lo g b m m') (c : Id) :
    Rel lo g b (m.rebind spoil c ⟨b, o, k⟩) (m'.rebind spoil c ⟨b, o, k⟩) := by
  obtain ⟨P, h1, h2⟩ := h
  exact h1.rebind h2 c

theorem each_rel {R : Mem V → Mem V → Prop} {size : Id → Nat} {f f' : Mem V → Id → Nat → Mem V} :
    ∀ (L : List Id) (k : Nat) (m m' : Mem V), (∀ c ∈ L, ∀ k m m', R m m' → R (f m c k) (f' m' c k)) →
      R m m' → R (each size f L k m) (each size f' L k m')
  | [], _, _, _, _, h => h
  | c :: L, k, m, m', hf, h => by
    unfold each
    exact each_rel L _ _ _ (fun d hd => hf d (by simp [hd])) (hf c (by simp) k m m' h)

theorem propagateF_rel {lo b : Nat} {spoil : Nat → Nat → V} : ∀ (n : Nat) (m m' : Mem V) (x : Id) (o : Nat),
    Rel lo g b m m' → Rel lo g b (propagateF spoil g n m x b o) (propagateF spoil g n m' x b o)
  | 0, _, _, _, _, h => h
  | n + 1, m, m', x, o, h => by
    unfold propagateF
    refine each_rel _ _ _ _ (fun c _ k m m' h => ?_) h
    exact propagateF_rel n _ _ c _ ((((h.ensure c).ensure x).assign x k c _).rebind c)

/-- Related memories. -/
def Near (lo : Nat) (g : Graph) (m m' : Mem V) : Prop := ∃ P, Shade P lo g m m'

theorem connectOne_near {lo : Nat} {spoil : Nat → Nat → V} {r : Id} (hr : g.leaf r = false) (p : Id)
    (k : Nat) (m m' : Mem V) (h : Near lo g m m') :
    Near lo g (connectOne spoil g r m p k) (connectOne spoil g r m' p k) := by
  obtain ⟨P, h⟩ := h
  have h1 := (h.ensure p).ensure r
  have h2 : Rel lo g (((m.ensure g p).ensure g r).view r).buf ((m.ensure g p).ensure g r)
      ((m'.ensure g p).ensure g r) := ⟨P, h1, h1.open_of_node hr⟩
  unfold connectOne
  simp only []
  rw [h1.view r]
  obtain ⟨P', h3, -⟩ := ((propagateF_rel (spoil := spoil) g.fuel _ _ p
    ((((m.ensure g p).ensure g r).view r).off + k) h2).assign r k p (g.size p)).rebind (spoil := spoil)
    (o := (((m.ensure g p).ensure g r).view r).off + k) (k := g.size p) p
  exact ⟨P', h3⟩

theorem connect_near {lo : Nat} {spoil : Nat → Nat → V} {r : Id} (hr : g.leaf r = false)
    {m m' : Mem V} (h : Near lo g m m') : Near lo g (m.connect spoil g r) (m'.connect spoil g r) :=
  each_rel _ _ _ _ (fun p _ k m m' h => connectOne_near hr p k m m' h) h

theorem build_near {lo : Nat} {spoil : Nat → Nat → V} : ∀ (L : List Id) {m m' : Mem V}, Near lo g m m' →
    Near lo g (build spoil g L m) (build spoil g L m')
  | [], _, _, h => h
  | y :: L, m, m', h => by
    unfold build
    rw [List.foldl_cons, List.foldl_cons]
    refine build_near L ?_
    split
    · exact h
    · rename_i hl
      exact connect_near (by simpa using hl) h


end Mem

namespace State

variable {V T : Type} [DecidableEq T] {spoil : Nat → Nat → V}

/-- Whether loaded arrays own their memory makes no difference before anything is connected. -/
theorem rawLoad_near {h : Heap T} (sk : Skel h.toGraph) {m : Mem V} (hb : Bounded m)
    (lo : LeafOwn h.toGraph m) (lf : LeafFits V h.toGraph m) {x : Id} (hx : x < h.next) (own : Id → Bool) :
    Mem.Near m.next (h.rawCopy x).toGraph (m.rawCopy h.toGraph x) (m.rawLoad own h.toGraph x) := by
  have hnd := Hier.Graph.nodup_subtree sk x
  obtain ⟨-, -, b3, -, b5, -, b7, -⟩ := rawCopy_facts sk hb lo lf x
  refine ⟨fun _ => False, ⟨rfl, rfl, rfl, fun _ _ _ => rfl, fun _ _ => rfl, fun _ h => h,
    fun _ h => h.elim, fun n => ?_⟩⟩
  have e1 : (m.rawLoad own h.toGraph x).owns n = match Hier.pick (h.toGraph.subtree x) h.next n with
      | none => m.owns n
      | some y => h.leaf y && own y := rfl
  have e2 : (m.rawCopy h.toGraph x).owns n = match Hier.pick (h.toGraph.subtree x) h.next n with
      | none => m.owns n
      | some _ => false := rfl
  rw [e1, e2]
  cases hp : Hier.pick (h.toGraph.subtree x) h.next n with
  | none => exact .inl rfl
  | some y =>
    obtain ⟨h1, h2⟩ := (Hier.pick_some hnd).mp hp
    have hy := sk.mem_subtree.mp h1
    have hn : n = h.copyOf x y := h2
    subst hn
    simp only []
    cases hl : h.leaf y with
    | false => left; simp
    | true =>
      cases ho : own y with
      | false => left; simp
      | true =>
        right
        have hylt := lt_of_anc sk hx hy
        obtain ⟨v, hv, -⟩ := lf y hylt hl
        have hpos : 0 < m.next := Nat.lt_of_le_of_lt (Nat.zero_le _) (hb y v hv)
        have hvy : ((m.rawCopy h.toGraph x).view (h.copyOf x y)).buf =
            m.next + (h.toGraph.subtree x).idxOf y := by
          rw [Mem.view_eq ((b7 y hy).trans (if_pos hl))]
        refine ⟨(Heap.raw_leaf_new sk hy).trans hl, by simp, trivial, ?_, by rw [hvy]; omega, ?_⟩
        · intro k hk
          rw [hvy]
          by_cases hk' : ∃ z, Anc h.toGraph x z ∧ k = h.copyOf x z
          · obtain ⟨z, hz, rfl⟩ := hk'
            have e3 := b7 z hz
            cases hlz : h.leaf z with
            | true =>
              rw [Mem.view_eq (e3.trans (if_pos hlz))]
              intro e
              apply hk
              have : z = y := (List.idxOf_inj (sk.mem_subtree.mpr hz)).mp (by simpa using e)
              rw [this]
            | false =>
              rw [hlz] at e3
              unfold Mem.view
              rw [e3]
              show 0 ≠ _
              omega
          · push Not at hk'
            have e3 := (b5 k (fun z hz => hk' z hz)).1
            unfold Mem.view
            rw [e3]
            cases e4 : m.arr k with
            | none => show 0 ≠ _; omega
            | some u =>
              have := hb k u e4
              show u.buf ≠ _
              omega
        · exact b3 _ _ ((b7 y hy).trans (if_pos hl)) |> fun e => by rw [hvy]; exact e

/-- Both sides of the model of loading, once the order is known. -/
theorem buildAll_eq {h : Heap T} {r : Id} (sk : Skel h.toGraph) {g : Graph}
    (hlf : ∀ y, Anc h.toGraph r y → g.leaf (h.copyOf r y) = h.leaf y) :
    ∀ (L b : List Id) (s : State V T), (∀ y ∈ L, Anc h.toGraph r y) → h.Ready b L →
    Shape g s.heap.toGraph →
    ∃ b', buildAll spoil h r L (s, b) =
      some (⟨h.connectAll r s.heap L, Mem.build spoil g (L.map (h.copyOf r)) s.mem⟩, b')
  | [], b, s, _, _, _ => ⟨b, rfl⟩
  | y :: L, b, s, hL, hr, hg => by
    have hy := hL y (by simp)
    unfold buildAll buildOne Heap.connectAll Mem.build
    rw [List.foldl_cons, List.map_cons, List.foldl_cons, hlf y hy]
    by_cases hl : h.leaf y = true
    · simp only [hl, if_true]
      exact buildAll_eq sk hlf L (y :: b) s (fun z hz => hL z (by simp [hz])) hr.2.2 hg
    · simp only [hl, if_pos hr.2.1]
      have hsh : Shape g (s.reconnect spoil (h.copyOf r y)).heap.toGraph := by
        rw [reconnect_heap]; exact hg.trans (reconnect_shape _ _)
      obtain ⟨b', e⟩ := buildAll_eq sk hlf L (y :: b) (s.reconnect spoil (h.copyOf r y))
        (fun z hz => hL z (by simp [hz])) hr.2.2 hsh
      refine ⟨b', e.trans ?_⟩
      have hm : (s.reconnect spoil (h.copyOf r y)).mem = s.mem.connect spoil g (h.copyOf r y) := by
        show Mem.connect spoil _ _ _ = _
        exact Mem.connect_shape spoil hg _ _
      rw [hm]
      rfl

theorem order_of_ready {h : Heap T} {r : Id} (sk : Skel h.toGraph) {g : Graph}
    (hk : ∀ y, Anc h.toGraph r y → g.kids (h.copyOf r y) = (h.kids y).map (h.copyOf r)) :
    ∀ (L b : List Id), (∀ y ∈ L, Anc h.toGraph r y) → (∀ y ∈ b, Anc h.toGraph r y) → h.Ready b L →
    Mem.Order g (b.map (h.copyOf r)) (L.map (h.copyOf r))
  | [], _, _, _, _ => trivial
  | y :: L, b, hL, hb, hr => by
    have hy := hL y (by simp)
    refine ⟨?_, ?_, ?_⟩
    · intro hm
      obtain ⟨z, hz, e⟩ := List.mem_map.mp hm
      have : z = y := Heap.copyOf_inj sk (hb z hz) e
      exact hr.1 (this ▸ hz)
    · intro c hc
      rw [hk y hy] at hc
      obtain ⟨z, hz, rfl⟩ := List.mem_map.mp hc
      exact List.mem_map_of_mem (hr.2.1 z hz)
    · refine order_of_ready sk hk L (y :: b) (fun z hz => hL z (by simp [hz])) ?_ hr.2.2
      intro z hz
      rcases List.mem_cons.mp hz with rfl | hz
      · exact hy
      · exact hb z hz

/-- What loading does to memory. -/
structure LoadMem (s s' : State V T) (x : Id) : Prop where
  heap : Heap.Copied s.heap s'.heap x
  bounded : Bounded s'.mem
  old : ∀ n, n < s.heap.next → s'.mem.arr n = s.mem.arr n
  cells : ∀ B i, B < s.mem.next → s'.mem.cell B i = s.mem.cell B i
  fresh : ∀ y v, Anc s.heap.toGraph x y → s'.mem.arr (s.heap.copyOf x y) = some v → s.mem.next ≤ v.buf
  calm : ∀ y, Anc s.heap.toGraph x y → ∃ b o, ∀ z k, At s.heap.toGraph y z k → 0 < s.heap.size z →
    s'.mem.arr (s.heap.copyOf x z) = some ⟨b, o + k, s.heap.size z⟩
  values : ∀ y, Anc s.heap.toGraph x y → s.heap.leaf y = true → ∀ i, i < s.heap.size y →
    s'.mem.read (s.heap.copyOf x y) i = s.mem.read y i

theorem load_loadMem {s : State V T} (w : s.heap.WF) (l : Linked s) (hb : Bounded s.mem)
    {refs : Id → List Id} (hrefs : s.heap.Refs refs) {x : Id} (hx : x < s.heap.next)
    (hp : s.heap.parent x = none) (own : Id → Bool) :
    ∃ s', s.load spoil own refs x = some (s', s.heap.next) ∧ LoadMem s s' x := by
  have sk := w.skel
  have sk' := Heap.raw_skel sk hx
  have z' : Sized (s.heap.rawCopy x).toGraph := Heap.raw_sized sk w.sized
  have hh : s.heap.toGraph.highest x = x := sk.highest_eq hp .refl
  obtain ⟨L, ho, hm, hrd⟩ := Heap.order_root sk hrefs hp
  obtain ⟨b1, b2, b3, b4, b5, b6, b7, b8⟩ := rawCopy_facts sk hb l.lo l.fits x
  set g' := (s.heap.rawCopy x).toGraph with hg'
  set m1 := s.mem.rawCopy s.heap.toGraph x with hm1
  set K := (L ++ [x]).map (s.heap.copyOf x) with hK
  have hKanc : ∀ y ∈ K, ∃ z, Anc s.heap.toGraph x z ∧ y = s.heap.copyOf x z := by
    intro y hy
    obtain ⟨z, hz, rfl⟩ := List.mem_map.mp hy
    exact ⟨z, (hm z).mp hz, rfl⟩
  -- the heap
  obtain ⟨H, hH, hC⟩ := Heap.load_copied w hrefs hx hp
  have hHe : H = s.heap.connectAll x (s.heap.rawLoad x) (L ++ [x]) := by
    obtain ⟨b', e⟩ := Heap.buildAll_ready (r := x) (L ++ [x]) (s.heap.rawLoad x) [] hrd
    unfold Heap.load at hH
    simp only at hH
    rw [hh, ho, e, Option.map_some, Option.some.injEq, Prod.mk.injEq] at hH
    exact hH.1.symm
  obtain ⟨b', e⟩ := buildAll_eq (spoil := spoil) sk (g := g')
    (fun y hy => Heap.raw_leaf_new sk hy) (L ++ [x]) []
    (⟨s.heap.rawLoad x, s.mem.rawLoad own s.heap.toGraph x⟩ : State V T) (fun y hy => (hm y).mp hy) hrd
    (Shape.of_eq rfl)
  refine ⟨⟨H, Mem.build spoil g' K (s.mem.rawLoad own s.heap.toGraph x)⟩, ?_, ?_⟩
  · unfold load
    simp only
    rw [hh, ho, e, Heap.copyOf_self, ← hHe]
    rfl
  -- memory, if no loaded array owned its memory
  have S := rawCopy_soundOn sk hb l.lo l.fits x
  have hNdown : ∀ y c, NewOf s.heap x y → g'.parent c = some y → NewOf s.heap x c := by
    rintro y c ⟨a, ha, rfl⟩ hc
    exact Heap.raw_anc_inv sk (.step (Heap.raw_anc sk ha) hc)
  have hhalf : Mem.Half (NewOf s.heap x) g' [] m1 := by
    refine ⟨S, by simp, by simp, ?_⟩
    rintro y ⟨a, ha, rfl⟩ - hl
    have hl : (s.heap.rawCopy x).leaf (s.heap.copyOf x a) = false := hl
    rw [Heap.raw_leaf_new sk ha] at hl
    rw [b7 a ha, if_neg (by rw [hl]; simp)]
  obtain ⟨F, hkeep⟩ := Mem.build_half sk' z' spoil hNdown K [] m1
    (order_of_ready sk (fun y hy => Heap.raw_kids_new sk hy) (L ++ [x]) [] (fun y hy => (hm y).mp hy)
      (by simp) hrd)
    (fun y hy => by
      obtain ⟨z, hz, rfl⟩ := hKanc y hy
      exact ⟨⟨z, hz, rfl⟩, Heap.copyOf_lt sk hz⟩) hhalf
  let P : Mem V → Prop := fun m => LeafOwn g' m ∧ Bounded m ∧ s.mem.next ≤ m.next ∧
    (∀ n, n < s.heap.next → m.arr n = s.mem.arr n) ∧
    (∀ B i, B < s.mem.next → m.cell B i = s.mem.cell B i) ∧
    (∀ n v, NewOf s.heap x n → m.arr n = some v → s.mem.next ≤ v.buf)
  have hnew_old : ∀ n, n < s.heap.next → ∀ y, Anc s.heap.toGraph x y → n ≠ s.heap.copyOf x y := by
    intro n hn y _ e
    rw [e] at hn
    exact absurd hn (Nat.not_lt.mpr (Heap.copyOf_ge s.heap x y))
  have hdown : ∀ a n, Anc s.heap.toGraph x a → Anc g' (s.heap.copyOf x a) n → NewOf s.heap x n :=
    fun a n ha hn => Heap.raw_anc_inv sk ((Heap.raw_anc sk ha).trans hn)
  have hP : ∀ m y, NewOf s.heap x y → P m → P (m.connect spoil g' y) := by
    rintro m y ⟨a, ha, rfl⟩ ⟨p1, p3, p4, p5, p6, p7⟩
    obtain ⟨q1, q2⟩ := connect_bounded spoil sk' z' p1 p3 (s.heap.copyOf x a)
    refine ⟨Mem.connect_lo sk' z' spoil p1 _, q1, le_trans p4 q2, ?_, ?_, ?_⟩
    · intro n hn
      obtain ⟨e1, -⟩ := Mem.connect_out sk' z' spoil p1 (r := s.heap.copyOf x a) (y := n) (fun h => by
        obtain ⟨c, hc, e⟩ := hdown a n ha h
        exact hnew_old n hn c hc e)
      rw [e1]; exact p5 n hn
    · intro B i hB
      rw [connect_elsewhere spoil sk' z' p1 _ (lt_of_lt_of_le hB p4) (fun n v hn hv => ?_), p6 B i hB]
      have := p7 n v (hdown a n ha hn) hv
      omega
    · intro n v hn hv
      by_cases hk : g'.kids (s.heap.copyOf x a) = []
      · rw [Mem.connect_nil spoil m hk] at hv; exact p7 n v hn hv
      obtain ⟨u, h1, h2, h3, -, h5, h6⟩ := Mem.connect_places sk' z' spoil p1 hk
      have hu : s.mem.next ≤ u.buf := by
        rcases h6 with ⟨h, -⟩ | ⟨-, h, -⟩
        · exact p7 _ u ⟨a, ha, rfl⟩ h.1
        · exact le_trans p4 h
      by_cases hyn : Anc g' (s.heap.copyOf x a) n
      · by_cases hny : n = s.heap.copyOf x a
        · subst hny; rw [h1.1] at hv; cases hv; exact hu
        · obtain ⟨k, hk'⟩ := sk'.exists_at hyn
          rw [(h2 n k hk' hny).1] at hv; cases hv; exact hu
      · rw [(h3 n hyn).1] at hv; exact p7 n v hn hv
  have hP1 : P m1 := by
    refine ⟨b1, b3, b4, fun n hn => (b5 n (hnew_old n hn)).1, b6, ?_⟩
    rintro n v ⟨y, hy, rfl⟩ hv
    rw [b7 y hy] at hv
    split at hv
    · cases hv; exact Nat.le_add_right _ _
    · cases hv
  have hPK : P (Mem.build spoil g' K m1) := by
    have : ∀ (K : List Id) (m : Mem V), (∀ y ∈ K, NewOf s.heap x y) → P m → P (Mem.build spoil g' K m) := by
      intro K
      induction K with
      | nil => intro m _ h; exact h
      | cons y K ih =>
        intro m hK h
        unfold Mem.build
        rw [List.foldl_cons]
        refine ih _ (fun z hz => hK z (by simp [hz])) ?_
        split
        · exact h
        · exact hP m y (hK y (by simp)) h
    exact this K m1 hKanc hP1
  obtain ⟨p1, p3, p4, p5, p6, p7⟩ := hPK
  -- and if some did
  obtain ⟨Q, N⟩ := Mem.build_near (spoil := spoil) K (rawLoad_near sk hb l.lo l.fits hx own)
  rw [← hm1] at N
  constructor
  · exact hC
  · intro n v hv
    rw [show (Mem.build spoil g' K (s.mem.rawLoad own s.heap.toGraph x)).arr = _ from N.arr] at hv
    show v.buf < (Mem.build spoil g' K (s.mem.rawLoad own s.heap.toGraph x)).next
    rw [N.next]; exact p3 n v hv
  · intro n hn
    exact (congrFun N.arr n).trans (p5 n hn)
  · intro B i hB
    exact (N.cell B i (fun h => absurd (N.range B h).1 (Nat.not_le.mpr hB))).trans (p6 B i hB)
  · intro y v hy hv
    exact p7 _ v ⟨y, hy, rfl⟩ ((congrFun N.arr _).symm.trans hv)
  · intro y hy
    obtain ⟨b, o, hc⟩ := F.calm (s.heap.copyOf x y) (by
      rw [List.append_nil, List.mem_reverse, hK]
      exact List.mem_map_of_mem ((hm y).mpr hy))
    refine ⟨b, o, fun z k hz hpos => ?_⟩
    have hxz := hy.trans (hz.anc sk)
    have hsz : g'.size (s.heap.copyOf x z) = s.heap.size z := Heap.raw_size_new sk hxz
    have hat : At g' (s.heap.copyOf x y) (s.heap.copyOf x z) k := by
      obtain ⟨a, ha⟩ := sk.exists_at hy
      have e1 := Heap.raw_at sk ha
      have e2 := Heap.raw_at sk (ha.trans hz)
      have han : Anc g' (s.heap.copyOf x y) (s.heap.copyOf x z) := by
        have hza := hz.anc sk
        clear hz e2 hxz hsz hpos
        induction hza with
        | refl => exact .refl
        | step h3 h4 ih => exact .step ih (Heap.raw_child sk (hy.trans h3) h4)
      obtain ⟨k', hk', he⟩ := sk'.at_below e1 e2 han
      have : k' = k := by omega
      rw [this] at hk'; exact hk'
    have h1 := (hc _ k hat (by rw [hsz]; exact hpos)).1
    rw [hsz] at h1
    exact (congrFun N.arr _).trans h1
  · intro y hy hl i hi
    have hl' : g'.leaf (s.heap.copyOf x y) = true := (Heap.raw_leaf_new sk hy).trans hl
    have hi' : i < g'.size (s.heap.copyOf x y) := by
      rw [show g'.size (s.heap.copyOf x y) = s.heap.size y from Heap.raw_size_new sk hy]; exact hi
    show (Mem.build spoil g' K (s.mem.rawLoad own s.heap.toGraph x)).read _ i = _
    rw [N.read, hkeep _ ⟨y, hy, rfl⟩ hl' (Heap.copyOf_lt sk hy) i hi', b8 y hy hl i hi]


end State

end Paramz.Memory

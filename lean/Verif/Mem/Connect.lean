import Verif.Mem.Lemmas

/-!
# Values when a hierarchy is connected
-/

set_option linter.unusedSectionVars false

namespace Paramz.Memory

open Hier (Id Graph upd upd_same upd_ne)
open Hier.Graph (Anc At Skel Sized)

variable {V : Type} {g : Graph}

theorem Has.congr {m m' : Mem V} {y : Id} {B i : Nat} (h : m'.arr y = m.arr y) :
    Has g m' y B i ↔ Has g m y B i := by
  unfold Has; rw [h]

theorem Fits.congr {m m' : Mem V} {y : Id} {v : View} (h : m'.arr y = m.arr y) :
    Fits g m' y v ↔ Fits g m y v := by
  unfold Fits; rw [h]

theorem Fits.unique {m : Mem V} {y : Id} {v w : View} (h1 : Fits g m y v) (h2 : Fits g m y w) : v = w :=
  Option.some.inj (h1.1.symm.trans h2.1)

/-- `Calm` with the buffer and the offset. -/
def CalmAt (g : Graph) (m : Mem V) (n : Id) (b o : Nat) : Prop :=
  ∀ y k, At g n y k → 0 < g.size y →
    m.arr y = some ⟨b, o + k, g.size y⟩ ∧ (y ≠ n → m.owns y = false)

theorem CalmAt.child (s : Skel g) {m : Mem V} {n c b o k : Nat} (h : CalmAt g m n b o) (hc : At g n c k) :
    CalmAt g m c b (o + k) := by
  intro y j hy hp
  obtain ⟨h1, h2⟩ := h y (k + j) (hc.trans hy) hp
  refine ⟨by rw [h1]; congr 2; omega, fun hne => ?_⟩
  by_cases hyn : y = n
  · subst hyn
    exact absurd (s.anc_antisymm (hc.anc s) (hy.anc s)) hne
  · exact h2 hyn

theorem CalmAt.fits {m : Mem V} {n b o : Nat} (h : CalmAt g m n b o) (hp : 0 < g.size n) :
    Fits g m n ⟨b, o, g.size n⟩ := ⟨(h n 0 .refl hp).1, rfl⟩

namespace Mem

/-- The element that a round copies. -/
theorem moved_cell (spoil : Nat → Nat → V) {m : Mem V} {x c : Id} {w v : View} (b o k : Nat)
    (hx : Fits g m x w) (hne : x ≠ c) (hc : Fits g m c v) {i : Nat} (hi : i < g.size c)
    (hf : m.owns c = true → ¬ Has g m c w.buf (w.off + k + i)) :
    (moved spoil g x b o m c k).cell w.buf (w.off + k + i) = m.cell v.buf (v.off + i) := by
  obtain ⟨he, hx'⟩ := moved_eq spoil b o k hx hne
  rw [he, ensure_fits hc]
  show (if m.owns c = true ∧ w.buf = (m.view c).buf ∧ (m.view c).off ≤ w.off + k + i ∧
      w.off + k + i < (m.view c).off + (m.view c).len then _ else
      (m.assign x k c (g.size c)).cell w.buf (w.off + k + i)) = _
  rw [if_neg]
  · show (if w.buf = (m.view x).buf ∧ (m.view x).off + k ≤ w.off + k + i ∧
      w.off + k + i < (m.view x).off + k + g.size c then _ else _) = _
    rw [view_eq hx.1, view_eq hc.1, if_pos ⟨rfl, by omega, by omega⟩]
    congr 1
    omega
  · rintro ⟨h1, h2, h3, h4⟩
    rw [view_eq hc.1] at h2 h3 h4
    exact hf h1 ⟨v, hc.1, hc.2, h2.symm, h3, h4⟩

/-- `_propagate_param_grad` collects in the array of `x` the elements of the arrays of its children, if
the array is outside the target window, nobody below owns it, and the element of the child is not
overwritten or freed while the earlier children are treated. -/
theorem propagate_content (s : Skel g) (z : Sized g) (spoil : Nat → Nat → V) {d : Id → Nat}
    (hd : ∀ c p, g.parent c = some p → d p < d c) (hb : ∀ x, d x ≤ g.next) {n : Nat} {x : Id}
    (hn : g.next < n + d x) {m : Mem V} {w v : View} {b o : Nat} (lo : LeafOwn g m) (hx : Fits g m x w)
    {P S : List Id} {c : Id} (hk : g.kids x = P ++ c :: S) (hv : Fits g m c v) {i : Nat}
    (hi : i < g.size c) (h0 : w.buf ≠ b) (hwn : w.buf < m.next) (hvb : v.buf ≠ b) (hvn : v.buf < m.next)
    (h1 : ∀ e ∈ g.kids x, ∀ y, Anc g e y → m.owns y = true → ¬ Has g m y w.buf (w.off + g.sizeSum P + i))
    (h2 : ∀ e ∈ P, ∀ y, Anc g e y → m.owns y = true → ¬ Has g m y v.buf (v.off + i))
    (h3 : v.buf = w.buf → w.off + g.sizeSum P ≤ v.off + i) :
    (propagateF spoil g n m x b o).cell w.buf (w.off + g.sizeSum P + i) = m.cell v.buf (v.off + i) := by
  cases n with
  | zero => exact absurd (hb x) (by omega)
  | succ n =>
    have hstep : ∀ m c k, LeafOwn g m → Fits g m x w → g.parent c = some x →
        LoopPost (fun _ => False) g m (propOne spoil g n x b o m c k) w [c] k b o := by
      intro m c k lo hx hc
      have := hd _ _ hc
      exact propOne_post s z spoil lo b o k hx hc (fun m w b o lo hw =>
        propagate_post s z spoil hd hb n c (by omega) m w b o lo hw)
    have hnd := s.nodup x
    have hpar : ∀ e ∈ P ++ c :: S, g.parent e = some x := fun e he =>
      (s.mem_iff _ _).mp (by rw [hk]; exact he)
    have hcx : g.parent c = some x := hpar c (by simp)
    rw [hk] at hnd
    have hnd' := List.nodup_append.mp hnd
    have hPc : ∀ e ∈ P, ∀ y, Anc g c y → ¬ Anc g e y := by
      intro e he y hy hey
      exact sibling_disjoint s hcx (hpar e (by simp [he]))
        (fun h => hnd'.2.2 e he c (by simp) h.symm) hy hey
    have hSc : ∀ e ∈ S, ∀ y, Anc g e y → ¬ Anc g c y := by
      intro e he y hey hy
      refine sibling_disjoint s hcx (hpar e (by simp [he])) ?_ hy hey
      rintro rfl
      exact (List.nodup_cons.mp hnd'.2.1).1 he
    have hPS : ∀ e ∈ S, ∀ f ∈ P, ∀ y, Anc g e y → ¬ Anc g f y := by
      intro e he f hf y hey
      exact sibling_disjoint s (hpar e (by simp [he])) (hpar f (by simp [hf]))
        (fun h => hnd'.2.2 f hf e (by simp [he]) h.symm) hey
    rw [propagateF_succ, hk, each_append]
    have postP := each_post s hstep P 0 m lo hx (fun e he => hpar e (by simp [he])) hnd'.1
    set mP := each g.size (propOne spoil g n x b o) P 0 m with hmP
    have hxP : Fits g mP x w := (Fits.congr (postP.out x
      (fun e he => s.not_anc_parent (hpar e (by simp [he])))).1).mpr hx
    have hcP : Fits g mP c v := (Fits.congr (postP.out c (fun e he => hPc e he c .refl)).1).mpr hv
    have hcellP : mP.cell v.buf (v.off + i) = m.cell v.buf (v.off + i) := by
      apply postP.cells _ _ hvn
      · exact fun h => hvb h.1
      · rintro ⟨h4, h5, h6⟩
        have := h3 h4
        omega
      · intro e he y hy ho
        rcases ho with ho | ho
        · exact h2 e he y hy ho
        · exact ho.elim
    show (each g.size _ S _ (propOne spoil g n x b o mP c (0 + (P.map g.size).sum))).cell _ _ = _
    have hsum : 0 + (P.map g.size).sum = g.sizeSum P := by rw [Nat.zero_add]; rfl
    rw [hsum]
    have hxne : x ≠ c := by rintro rfl; exact s.not_anc_parent hcx .refl
    -- the round of `c`
    have hround : (propOne spoil g n x b o mP c (g.sizeSum P)).cell w.buf (w.off + g.sizeSum P + i) =
        m.cell v.buf (v.off + i) := by
      obtain ⟨p1, p2, p3, p4, p5, p6⟩ := moved_post spoil postP.leafOwn b o (g.sizeSum P) hxP hxne
      have hcd := hd _ _ hcx
      have q := propagate_post s z spoil hd hb n c (by omega) _ _ b (o + g.sizeSum P) p2 p4
      rw [show propOne spoil g n x b o mP c (g.sizeSum P) = propagateF spoil g n
        (moved spoil g x b o mP c (g.sizeSum P)) c b (o + g.sizeSum P) from rfl]
      rw [q.cells w.buf _ (by have := postP.next; omega) (fun h => h0 h.1) (fun h => h0 h.1)]
      · rw [moved_cell spoil b o (g.sizeSum P) hxP hxne hcP hi, hcellP]
        intro ho hhas
        have e1 := postP.out c (fun e he => hPc e he c .refl)
        exact h1 c (by rw [hk]; simp) c .refl (e1.2 ▸ ho) ((Has.congr e1.1).mp hhas)
      · intro e he y hey ho hhas
        have hcy : Anc g c y := (Anc.of_parent ((s.mem_iff _ _).mp he)).trans hey
        have hyc : y ≠ c := by
          rintro rfl; exact s.not_anc_parent ((s.mem_iff _ _).mp he) hey
        have e1 := postP.out y (fun e he => hPc e he y hcy)
        rcases ho with ho | ho
        · rw [(p3 y hyc).2, e1.2] at ho
          rw [Has.congr (p3 y hyc).1, Has.congr e1.1] at hhas
          exact h1 c (by rw [hk]; simp) y hcy ho hhas
        · exact ho
    -- the rounds after it
    have postc := hstep mP c (g.sizeSum P) postP.leafOwn hxP hcx
    have hxc : Fits g (propOne spoil g n x b o mP c (g.sizeSum P)) x w :=
      (Fits.congr (postc.out x (fun e he => by
        simp at he; subst he; exact s.not_anc_parent hcx)).1).mpr hxP
    have postS := each_post s hstep S (g.sizeSum P + g.size c) _ postc.leafOwn hxc
      (fun e he => hpar e (by simp [he])) (List.nodup_cons.mp hnd'.2.1).2
    rw [postS.cells w.buf _ (by have := postP.next; have := postc.next; omega) (fun h => h0 h.1)
      (by omega), hround]
    intro e he y hey ho hhas
    have e1 := postc.out y (fun f hf => by simp at hf; subst hf; exact hSc e he y hey)
    have e2 := postP.out y (fun f hf => hPS e he f hf y hey)
    rcases ho with ho | ho
    · rw [e1.2, e2.2] at ho
      rw [Has.congr e1.1, Has.congr e2.1] at hhas
      exact h1 e (by rw [hk]; simp [he]) y hey ho hhas
    · exact ho

/-- On a tree that is already in the target window `_propagate_param_grad` changes no memory that was
in use. -/
theorem propagate_calm (s : Skel g) (z : Sized g) (spoil : Nat → Nat → V) {d : Id → Nat}
    (hd : ∀ c p, g.parent c = some p → d p < d c) (hb : ∀ x, d x ≤ g.next) :
    ∀ (n : Nat) (x : Id), g.next < n + d x → ∀ (m : Mem V) (b o : Nat), LeafOwn g m →
      Fits g m x ⟨b, o, g.size x⟩ → CalmAt g m x b o →
      ∀ B i, B < m.next → (propagateF spoil g n m x b o).cell B i = m.cell B i
  | 0, x, h => absurd (hb x) (by omega)
  | n + 1, x, h => by
    intro m b o lo hx hcalm
    rw [propagateF_succ]
    have key : ∀ (L P : List Id) (m : Mem V), LeafOwn g m → Fits g m x ⟨b, o, g.size x⟩ →
        CalmAt g m x b o → g.kids x = P ++ L →
        ∀ B i, B < m.next →
          (each g.size (propOne spoil g n x b o) L (g.sizeSum P) m).cell B i = m.cell B i := by
      intro L
      induction L with
      | nil => intro P m _ _ _ _ B i _; rfl
      | cons c L ih =>
        intro P m lo hx hcalm hk B i hB
        have hcx : g.parent c = some x := (s.mem_iff _ _).mp (by rw [hk]; simp)
        have hxne : x ≠ c := by rintro rfl; exact s.not_anc_parent hcx .refl
        have hcd := hd _ _ hcx
        have hat : At g x c (g.sizeSum P) := by
          have := At.step (.refl : At g x x 0) hk
          rwa [Nat.zero_add] at this
        have post := propOne_post s z spoil (n := n) lo b o (g.sizeSum P) hx hcx (fun m w b o lo hw =>
          propagate_post s z spoil hd hb n c (by omega) m w b o lo hw)
        obtain ⟨p1, p2, p3, p4, p5, p6⟩ := moved_post spoil lo b o (g.sizeSum P) hx hxne
        -- cells
        have hmoved : ∀ B i, B < m.next →
            (moved spoil g x b o m c (g.sizeSum P)).cell B i = m.cell B i := by
          intro B i hB
          by_cases hpos : 0 < g.size c
          · obtain ⟨ha, ho⟩ := hcalm c _ hat hpos
            have ho' := ho (Ne.symm hxne)
            by_cases hw : B = b ∧ o + g.sizeSum P ≤ i ∧ i < o + g.sizeSum P + g.size c
            · obtain ⟨rfl, h5, h6⟩ := hw
              have := moved_cell spoil B o (g.sizeSum P) hx hxne (v := ⟨B, o + g.sizeSum P, g.size c⟩)
                ⟨ha, rfl⟩ (i := i - (o + g.sizeSum P)) (by omega) (by rw [ho']; simp)
              simp only at this
              rw [show o + g.sizeSum P + (i - (o + g.sizeSum P)) = i by omega] at this
              exact this
            · exact p6 B i hB hw (by rw [ho']; simp)
          · apply p6 B i hB
            · simp only; omega
            · rintro - ⟨v, h1, h2, h3, h4, h5⟩
              omega
        have hcalm1 : CalmAt g (moved spoil g x b o m c (g.sizeSum P)) x b o := by
          intro y k hy hpos
          by_cases hyc : y = c
          · subst hyc
            have := s.at_unique hy hat
            subst this
            exact ⟨p4.1, fun _ => p5⟩
          · rw [(p3 y hyc).1, (p3 y hyc).2]
            exact hcalm y k hy hpos
        have hcells : ∀ B i, B < m.next →
            (propOne spoil g n x b o m c (g.sizeSum P)).cell B i = m.cell B i := by
          intro B i hB
          rw [show propOne spoil g n x b o m c (g.sizeSum P) = propagateF spoil g n
            (moved spoil g x b o m c (g.sizeSum P)) c b (o + g.sizeSum P) from rfl]
          rw [propagate_calm s z spoil hd hb n c (by omega) _ b (o + g.sizeSum P) p2 p4
            (hcalm1.child s hat) B i (lt_of_lt_of_le hB p1)]
          exact hmoved B i hB
        have hcalm2 : CalmAt g (propOne spoil g n x b o m c (g.sizeSum P)) x b o := by
          intro y k hy hpos
          by_cases hcy : Anc g c y
          · obtain ⟨j, hj⟩ := s.exists_at hcy
            have e1 := post.inn [] c [] rfl y j hj
            have hkj := s.at_unique hy (hat.trans hj)
            refine ⟨?_, fun _ => e1.2⟩
            rw [e1.1]
            congr 2
            simp only [Hier.Graph.sizeSum_nil]
            omega
          · have e1 := post.out y (fun f hf => by simp at hf; subst hf; exact hcy)
            rw [e1.1, e1.2]
            exact hcalm y k hy hpos
        have hx2 : Fits g (propOne spoil g n x b o m c (g.sizeSum P)) x ⟨b, o, g.size x⟩ :=
          (Fits.congr (post.out x (fun e he => by
            simp at he; subst he; exact s.not_anc_parent hcx)).1).mpr hx
        have := ih (P ++ [c]) _ post.leafOwn hx2 hcalm2 (by rw [hk]; simp) B i
          (lt_of_lt_of_le hB post.next)
        rw [Hier.Graph.sizeSum_append, Hier.Graph.sizeSum_cons, Hier.Graph.sizeSum_nil,
          Nat.add_zero] at this
        show (each g.size _ L _ (propOne spoil g n x b o m c (g.sizeSum P))).cell B i = _
        rw [this]
        exact hcells B i hB
    exact key (g.kids x) [] m lo hx hcalm rfl

/-! ### `_connect_parameters` -/

/-- The state after the child has propagated. -/
def spread (spoil : Nat → Nat → V) (g : Graph) (m : Mem V) (p b o : Nat) : Mem V :=
  propagateF spoil g g.fuel (m.ensure g p) p b o

theorem connectOne_eq (spoil : Nat → Nat → V) {m : Mem V} {r p k : Nat} {w : View} (hr : Fits g m r w)
    (hne : r ≠ p) : connectOne spoil g r m p k =
      rebind spoil ((spread spoil g m p w.buf (w.off + k)).assign r k p (g.size p)) p
        ⟨w.buf, w.off + k, g.size p⟩ := by
  have h : Fits g (m.ensure g p) r w := (Fits.congr (ensure_ne hne).1).mpr hr
  simp only [connectOne]
  rw [ensure_fits h, view_eq h.1]
  rfl

theorem ensure_exists (m : Mem V) {p : Id} (hl : g.leaf p = false) :
    ∃ u, Fits g (m.ensure g p) p u ∧ ((m.ensure g p = m ∧ Fits g m p u) ∨
      (u = ⟨m.next, 0, g.size p⟩ ∧ m.ensure g p = m.alloc p (g.size p) ∧ ∀ w, ¬ Fits g m p w)) := by
  rcases ensure_cases g m p with ⟨h, hf⟩ | ⟨h, -, hf⟩
  · obtain ⟨u, hu⟩ := hf hl
    exact ⟨u, by rw [h]; exact hu, .inl ⟨h, hu⟩⟩
  · exact ⟨⟨m.next, 0, g.size p⟩, by rw [h]; exact ⟨upd_same _ _ _, rfl⟩, .inr ⟨rfl, h, hf⟩⟩

theorem spread_leaf (s : Skel g) (spoil : Nat → Nat → V) {m : Mem V} {p : Id} (hl : g.leaf p = true)
    (b o : Nat) : spread spoil g m p b o = m := by
  unfold spread
  rw [ensure_leaf hl]
  unfold Graph.fuel
  rw [propagateF_succ, s.leaf p hl]
  rfl

theorem spread_post (s : Skel g) (z : Sized g) (spoil : Nat → Nat → V) {m : Mem V} (lo : LeafOwn g m)
    {p : Id} (b o : Nat) {u : View} (hu : Fits g (m.ensure g p) p u) :
    LoopPost (fun _ => False) g (m.ensure g p) (spread spoil g m p b o) u (g.kids p) 0 b o := by
  obtain ⟨d, hd, hb⟩ := s.rank
  exact propagate_post s z spoil hd hb g.fuel p (by unfold Graph.fuel; omega) _ u b o
    (ensure_leafOwn lo p) hu

/-- Everything about the state after the child has propagated that does not depend on what it is. -/
theorem spread_facts (s : Skel g) (z : Sized g) (spoil : Nat → Nat → V) {m : Mem V} (lo : LeafOwn g m)
    (p : Id) (b o : Nat) :
    m.next ≤ (spread spoil g m p b o).next ∧ LeafOwn g (spread spoil g m p b o) ∧
    (∀ y, ¬ Anc g p y → (spread spoil g m p b o).arr y = m.arr y ∧
      (spread spoil g m p b o).owns y = m.owns y) ∧
    ((spread spoil g m p b o).arr p = (m.ensure g p).arr p ∧
      (spread spoil g m p b o).owns p = (m.ensure g p).owns p) ∧
    (∀ y j, At g p y j → y ≠ p → (spread spoil g m p b o).arr y = some ⟨b, o + j, g.size y⟩ ∧
      (spread spoil g m p b o).owns y = false) ∧
    (∀ B i, B < m.next → ¬ (B = b ∧ o ≤ i ∧ i < o + g.size p) → ¬ Has g m p B i →
      (∀ y, Anc g p y → m.owns y = true → ¬ Has g m y B i) →
      (spread spoil g m p b o).cell B i = m.cell B i) := by
  cases hl : g.leaf p with
  | true =>
    rw [spread_leaf s spoil hl, ensure_leaf hl]
    refine ⟨le_refl _, lo, fun _ _ => ⟨rfl, rfl⟩, ⟨rfl, rfl⟩, fun y j hy hne => ?_, fun _ _ _ _ _ _ => rfl⟩
    obtain ⟨e, A, B, hk, -⟩ := Hier.Graph.Ins.child_above s (hy.anc s) (Ne.symm hne)
    rw [s.leaf p hl] at hk
    simp at hk
  | false =>
    obtain ⟨u, hu, hcase⟩ := ensure_exists m hl
    have post := spread_post s z spoil lo b o hu
    refine ⟨le_trans (ensure_next m p) post.next, post.leafOwn, ?_, ?_, ?_, ?_⟩
    · intro y hy
      have hne : y ≠ p := by rintro rfl; exact hy .refl
      have e1 := post.out y (fun c hc hcy => hy ((Anc.of_parent ((s.mem_iff _ _).mp hc)).trans hcy))
      exact ⟨e1.1.trans (ensure_ne hne).1, e1.2.trans (ensure_ne hne).2⟩
    · exact post.out p (fun c hc => s.not_anc_parent ((s.mem_iff _ _).mp hc))
    · intro y j hy hne
      obtain ⟨e', A', B', hk, he'⟩ := Hier.Graph.Ins.child_above s (hy.anc s) (Ne.symm hne)
      obtain ⟨j', hj'⟩ := s.exists_at he'
      have hjj := s.at_unique hy ((At.step (.refl : At g p p 0) hk).trans hj')
      have q1 := post.inn A' e' B' hk y j' hj'
      refine ⟨?_, q1.2⟩
      rw [q1.1]
      congr 2
      omega
    · intro B i hB hw hp ho
      rw [post.cells B i (lt_of_lt_of_le hB (ensure_next m p)), ensure_cell]
      · rw [← z p hl]; omega
      · rw [← z p hl]
        rintro ⟨h1, h2, h3⟩
        rcases hcase with ⟨-, hf⟩ | ⟨rfl, -, -⟩
        · exact hp ⟨u, hf.1, hf.2, h1.symm, by omega, by rw [hf.2]; omega⟩
        · simp only at h1
          omega
      · intro c hc y hcy how hhas
        have hpc := (s.mem_iff _ _).mp hc
        have hyp : y ≠ p := by rintro rfl; exact s.not_anc_parent hpc hcy
        rw [(ensure_ne hyp).2] at how
        rw [Has.congr (ensure_ne hyp).1] at hhas
        rcases how with how | how
        · exact ho y ((Anc.of_parent hpc).trans hcy) how hhas
        · exact how

/-- One round of `_connect_parameters`. -/
theorem connectOne_post (s : Skel g) (z : Sized g) (spoil : Nat → Nat → V) {m : Mem V} (lo : LeafOwn g m)
    {r p : Id} {w : View} (k : Nat) (hr : Fits g m r w) (hp : g.parent p = some r) :
    LoopPost (fun y => g.parent y = some r) g m (connectOne spoil g r m p k) w [p] k w.buf w.off := by
  have hne : r ≠ p := by rintro rfl; exact s.not_anc_parent hp .refl
  rw [connectOne_eq spoil hr hne]
  obtain ⟨f1, f2, f3, f4, f5, f6⟩ := spread_facts s z spoil lo p w.buf (w.off + k)
  set m2 := spread spoil g m p w.buf (w.off + k)
  have hr2 : m2.arr r = some w := by rw [(f3 r (s.not_anc_parent hp)).1]; exact hr.1
  constructor
  · exact f1
  · intro y hy
    show upd m2.owns p false y = false
    by_cases hyp : y = p
    · subst hyp; exact upd_same _ _ _
    · rw [upd_ne _ _ hyp]; exact f2 y hy
  · intro y hy
    have hpy := hy p (by simp)
    have hyp : y ≠ p := by rintro rfl; exact hpy .refl
    exact ⟨(upd_ne _ _ hyp).trans (f3 y hpy).1, (upd_ne _ _ hyp).trans (f3 y hpy).2⟩
  · intro A e B he y j hy
    have hA : A = [] ∧ e = p := by
      cases A with
      | nil => simp at he; exact ⟨rfl, he.1.symm⟩
      | cons a A => simp at he
    obtain ⟨rfl, hep⟩ := hA
    subst hep
    by_cases hye : y = e
    · subst hye
      have hj := s.at_self hy
      subst hj
      exact ⟨(upd_same _ _ _).trans (by simp), upd_same _ _ _⟩
    · refine ⟨(upd_ne _ _ hye).trans ?_, (upd_ne _ _ hye).trans (f5 y j hy hye).2⟩
      rw [show ((m2.assign r k e (g.size e)).arr y) = m2.arr y from rfl, (f5 y j hy hye).1]
      congr 2
  · intro B i hB hb hw ho
    simp only [Hier.Graph.sizeSum_cons, Hier.Graph.sizeSum_nil, Nat.add_zero] at hb hw
    show (if m2.owns p = true ∧ B = (m2.view p).buf ∧ (m2.view p).off ≤ i ∧
      i < (m2.view p).off + (m2.view p).len then _ else
      if B = (m2.view r).buf ∧ (m2.view r).off + k ≤ i ∧ i < (m2.view r).off + k + g.size p then _
      else m2.cell B i) = _
    rw [view_eq hr2, if_neg, if_neg hw]
    · exact f6 B i hB hb (ho p (by simp) p .refl (.inr hp))
        (fun y hy h => ho p (by simp) y hy (.inl h))
    · rintro ⟨h1, h2, h3, h4⟩
      cases hl : g.leaf p with
      | true => rw [f2 p hl] at h1; cases h1
      | false =>
        obtain ⟨u, hu, hcase⟩ := ensure_exists m hl
        have hv : m2.view p = u := view_eq (f4.1.trans hu.1)
        rw [hv] at h2 h3 h4
        rcases hcase with ⟨-, hf⟩ | ⟨rfl, -, -⟩
        · exact ho p (by simp) p .refl (.inr hp) ⟨u, hf.1, hf.2, h2.symm, h3, h4⟩
        · simp only at h2
          omega

/-- What a round puts in the array of the root. -/
theorem connectOne_cell (s : Skel g) (z : Sized g) (spoil : Nat → Nat → V) {m : Mem V} (lo : LeafOwn g m)
    {r p : Id} {w u : View} (k : Nat) (hr : Fits g m r w) (hp : g.parent p = some r)
    (hu : Fits g (m.ensure g p) p u) (hne : u.buf ≠ w.buf ∨ (m.ensure g p).owns p = false)
    {j : Nat} (hj : j < g.size p) :
    (connectOne spoil g r m p k).cell w.buf (w.off + k + j) =
      (spread spoil g m p w.buf (w.off + k)).cell u.buf (u.off + j) := by
  have hrp : r ≠ p := by rintro rfl; exact s.not_anc_parent hp .refl
  rw [connectOne_eq spoil hr hrp]
  obtain ⟨f1, f2, f3, f4, f5, f6⟩ := spread_facts s z spoil lo p w.buf (w.off + k)
  set m2 := spread spoil g m p w.buf (w.off + k)
  have hr2 : m2.arr r = some w := by rw [(f3 r (s.not_anc_parent hp)).1]; exact hr.1
  have hv : m2.view p = u := view_eq (f4.1.trans hu.1)
  show (if m2.owns p = true ∧ w.buf = (m2.view p).buf ∧ (m2.view p).off ≤ w.off + k + j ∧
      w.off + k + j < (m2.view p).off + (m2.view p).len then _ else
      if w.buf = (m2.view r).buf ∧ (m2.view r).off + k ≤ w.off + k + j ∧
        w.off + k + j < (m2.view r).off + k + g.size p then
        m2.cell (m2.view p).buf ((m2.view p).off + (w.off + k + j - ((m2.view r).off + k)))
      else m2.cell _ _) = _
  rw [view_eq hr2, hv, if_neg, if_pos ⟨rfl, by omega, by omega⟩]
  · congr 1; omega
  · rintro ⟨h1, h2, -, -⟩
    rcases hne with h | h
    · exact h h2.symm
    · rw [f4.2, h] at h1; cases h1

theorem connect_post (s : Skel g) (z : Sized g) (spoil : Nat → Nat → V) {m : Mem V} (lo : LeafOwn g m)
    {r : Id} {w : View} (hr : Fits g m r w) :
    LoopPost (fun y => g.parent y = some r) g m (connect spoil g m r) w (g.kids r) 0 w.buf w.off :=
  each_post s (fun _ _ k lo hr hp => connectOne_post s z spoil lo k hr hp) (g.kids r) 0 m lo hr
    (fun _ hc => (s.mem_iff _ _).mp hc) (s.nodup r)

/-- Where a value comes from: the array of the child's child (or of the child if it is calm). -/
def Source (g : Graph) (m : Mem V) (p y : Id) (B i : Nat) : Prop :=
  (∃ b o, CalmAt g m p b o) ∨
  ((∀ u, Fits g m p u → ∀ n v, Anc g p n → n ≠ p → m.arr n = some v → v.buf ≠ u.buf) ∧
    ∀ c, g.parent c = some p → Anc g c y → (∃ b o, CalmAt g m c b o) ∧
      ∀ e, g.parent e = some p → e ≠ c → ∀ n, Anc g e n → m.owns n = true → ¬ Has g m n B i)

/-- One round of `_connect_parameters` brings the value of a `Param` below the child to its place. -/
theorem connectOne_value (s : Skel g) (z : Sized g) (spoil : Nat → Nat → V) {m : Mem V} (lo : LeafOwn g m)
    {r p : Id} {w : View} (k : Nat) (hr : Fits g m r w) (hp : g.parent p = some r)
    (hwn : w.buf < m.next)
    (hB : ∀ n v, Anc g p n → m.arr n = some v → v.buf ≠ w.buf ∧ v.buf < m.next)
    {y j i : Nat} {v : View} (hy : g.leaf y = true) (hat : At g p y j) (hv : Fits g m y v)
    (hi : i < g.size y) (ok : Source g m p y v.buf (v.off + i)) :
    (connectOne spoil g r m p k).cell w.buf (w.off + k + (j + i)) = m.cell v.buf (v.off + i) := by
  obtain ⟨d, hd, hb⟩ := s.rank
  have hvB := hB y v (hat.anc s) hv.1
  have hwin := hat.window s z
  by_cases hpy : p = y
  · subst hpy
    have hj := s.at_self hat
    subst hj
    rw [connectOne_cell s z spoil lo k hr hp (u := v) (by rw [ensure_leaf hy]; exact hv)
      (.inl hvB.1) (by omega), spread_leaf s spoil hy]
    congr 1; omega
  have hl : g.leaf p = false := by
    cases h : g.leaf p with
    | false => rfl
    | true =>
      obtain ⟨e, A, B, hk, -⟩ := Hier.Graph.Ins.child_above s (hat.anc s) hpy
      rw [s.leaf p h] at hk
      simp at hk
  obtain ⟨c, P, S, hk, hcy⟩ := Hier.Graph.Ins.child_above s (hat.anc s) hpy
  obtain ⟨j', hj'⟩ := s.exists_at hcy
  have hatc : At g p c (g.sizeSum P) := by
    have := At.step (.refl : At g p p 0) hk
    rwa [Nat.zero_add] at this
  have hjj := s.at_unique hat (hatc.trans hj')
  have hwinc := hj'.window s z
  have hpc : g.parent c = some p := s.parent_of hk
  have hcp : c ≠ p := by rintro rfl; exact s.not_anc_parent hpc .refl
  obtain ⟨u, hu, hcase⟩ := ensure_exists m hl
  have hne1 : ∀ n, n ≠ p → (m.ensure g p).arr n = m.arr n ∧ (m.ensure g p).owns n = m.owns n :=
    fun n hn => ensure_ne hn
  have hub : u.buf ≠ w.buf ∧ u.buf < (m.ensure g p).next := by
    rcases hcase with ⟨h1, h2⟩ | ⟨rfl, h2, -⟩
    · rw [h1]; exact hB p u .refl h2.1
    · rw [h2]; exact ⟨by simp only; omega, Nat.lt_succ_self _⟩
  rw [connectOne_cell s z spoil lo k hr hp hu (.inl hub.1) (by omega)]
  have hbelow : ∀ e ∈ g.kids p, ∀ n, Anc g e n → n ≠ p ∧ Anc g p n := by
    intro e he n hn
    have := (s.mem_iff _ _).mp he
    exact ⟨by rintro rfl; exact s.not_anc_parent this hn, (Anc.of_parent this).trans hn⟩
  -- the array of `c`
  obtain ⟨vc, hvc, hvceq, h1, h2, h3⟩ : ∃ vc, Fits g m c vc ∧ v = ⟨vc.buf, vc.off + j', g.size y⟩ ∧
      (∀ e ∈ g.kids p, ∀ n, Anc g e n → m.owns n = true →
        ¬ Has g m n u.buf (u.off + g.sizeSum P + (j' + i))) ∧
      (∀ e ∈ P, ∀ n, Anc g e n → m.owns n = true → ¬ Has g m n vc.buf (vc.off + (j' + i))) ∧
      (vc.buf = u.buf → u.off + g.sizeSum P ≤ vc.off + (j' + i)) := by
    rcases ok with ⟨b, o, hcalm⟩ | ⟨hpriv, hc⟩
    · have hpu : u = ⟨b, o, g.size p⟩ := by
        have hf := hcalm.fits (by omega)
        rcases hcase with ⟨-, h2⟩ | ⟨-, -, h2⟩
        · exact h2.unique hf
        · exact absurd hf (h2 _)
      have hno : ∀ e ∈ g.kids p, ∀ n, Anc g e n → m.owns n = true → ∀ B i, ¬ Has g m n B i := by
        intro e he n hn ho B i hhas
        obtain ⟨h4, h5⟩ := hbelow e he n hn
        obtain ⟨q, hq⟩ := s.exists_at h5
        obtain ⟨v', hv1, hv2, -, hv3, hv4⟩ := hhas
        rw [(hcalm n q hq (by omega)).2 h4] at ho
        cases ho
      refine ⟨⟨b, o + g.sizeSum P, g.size c⟩, ⟨(hcalm c _ hatc (by omega)).1, rfl⟩, ?_,
        fun e he n hn ho => hno e he n hn ho _ _,
        fun e he n hn ho => hno e (by rw [hk]; simp [he]) n hn ho _ _, fun _ => ?_⟩
      · have := (hcalm y j hat (by omega)).1
        rw [hv.1] at this
        rw [Option.some.inj this]
        simp only [View.mk.injEq, true_and, and_true]
        omega
      · rw [hpu]
        simp only
        omega
    · obtain ⟨⟨b, o, hcalm⟩, hsib⟩ := hc c hpc hcy
      have hf : Fits g m c ⟨b, o, g.size c⟩ := hcalm.fits (by omega)
      have hvv : v = ⟨b, o + j', g.size y⟩ := by
        have := (hcalm y j' hj' (by omega)).1
        rw [hv.1] at this
        exact Option.some.inj this
      have hub' : ∀ n v, Anc g p n → n ≠ p → m.arr n = some v → v.buf ≠ u.buf := by
        intro n v' h4 h5 h6
        rcases hcase with ⟨-, h2⟩ | ⟨rfl, -, -⟩
        · exact hpriv u h2 n v' h4 h5 h6
        · have := (hB n v' h4 h6).2
          simp only
          omega
      refine ⟨_, hf, hvv, ?_, ?_, ?_⟩
      · rintro e he n hn - ⟨v', hv1, -, hv2, -⟩
        obtain ⟨h4, h5⟩ := hbelow e he n hn
        exact hub' n v' h5 h4 hv1 hv2
      · intro e he n hn ho
        have := hsib e ((s.mem_iff _ _).mp (by rw [hk]; simp [he])) (by
          rintro rfl
          have := s.nodup p
          rw [hk] at this
          exact (List.nodup_append.mp this).2.2 e he e (by simp) rfl) n hn ho
        rw [hvv] at this
        simp only [Nat.add_assoc] at this ⊢
        exact this
      · intro h
        exact absurd h (hub' c _ (Anc.of_parent hpc) hcp hf.1)
  have hfc : Fits g (m.ensure g p) c vc := (Fits.congr (hne1 c hcp).1).mpr hvc
  have hcB := hB c vc (Anc.of_parent hpc) hvc.1
  have key := propagate_content s z spoil hd hb (n := g.fuel) (x := p) (by unfold Graph.fuel; omega)
    (b := w.buf) (o := w.off + k) (ensure_leafOwn lo p) hu hk hfc (i := j' + i) (by omega) hub.1 hub.2
    hcB.1 (lt_of_lt_of_le hcB.2 (ensure_next m p))
    (fun e he n hn ho hhas => by
      obtain ⟨h4, -⟩ := hbelow e he n hn
      rw [(hne1 n h4).2] at ho
      rw [Has.congr (hne1 n h4).1] at hhas
      exact h1 e he n hn ho hhas)
    (fun e he n hn ho hhas => by
      obtain ⟨h4, -⟩ := hbelow e (by rw [hk]; simp [he]) n hn
      rw [(hne1 n h4).2] at ho
      rw [Has.congr (hne1 n h4).1] at hhas
      exact h2 e he n hn ho hhas) h3
  rw [ensure_cell] at key
  unfold spread
  rw [hvceq]
  simp only
  rw [show vc.off + j' + i = vc.off + (j' + i) by omega, ← key]
  congr 1
  omega

/-- `_connect_parameters` of a root whose array is a buffer that nothing else uses brings the values of
the `Param`s to their places. -/
theorem connect_value (s : Skel g) (z : Sized g) (spoil : Nat → Nat → V) {m : Mem V} (lo : LeafOwn g m)
    {r p : Id} {w : View} (hr : Fits g m r w) (hwn : w.buf < m.next)
    (hB : ∀ n v, Anc g r n → n ≠ r → m.arr n = some v → v.buf ≠ w.buf ∧ v.buf < m.next)
    (hp : g.parent p = some r) {y j k i : Nat} {v : View} (hk : At g r p k) (hy : g.leaf y = true)
    (hat : At g p y j) (hv : Fits g m y v) (hi : i < g.size y)
    (hsep : ∀ n, Anc g r n → ¬ Anc g p n → (m.owns n = true ∨ g.parent n = some r) → n ≠ r →
      ¬ Has g m n v.buf (v.off + i))
    (ok : Source g m p y v.buf (v.off + i)) :
    (connect spoil g m r).cell w.buf (w.off + k + (j + i)) = m.cell v.buf (v.off + i) := by
  obtain ⟨P, S, hkids⟩ := List.append_of_mem ((s.mem_iff _ _).mpr hp)
  have hkP : k = g.sizeSum P := by
    have := s.at_unique hk (At.step (.refl : At g r r 0) hkids)
    omega
  subst hkP
  have hstep : ∀ m c k, LeafOwn g m → Fits g m r w → g.parent c = some r →
      LoopPost (fun y => g.parent y = some r) g m (connectOne spoil g r m c k) w [c] k w.buf w.off :=
    fun _ _ k lo hr hp => connectOne_post s z spoil lo k hr hp
  have hnd := s.nodup r
  have hpar : ∀ e ∈ P ++ p :: S, g.parent e = some r := fun e he =>
    (s.mem_iff _ _).mp (by rw [hkids]; exact he)
  rw [hkids] at hnd
  have hnd' := List.nodup_append.mp hnd
  have hanc : ∀ e ∈ P ++ p :: S, ∀ n, Anc g e n → Anc g r n ∧ n ≠ r := by
    intro e he n hn
    refine ⟨(Anc.of_parent (hpar e he)).trans hn, ?_⟩
    rintro rfl
    exact s.not_anc_parent (hpar e he) hn
  have hPp : ∀ e ∈ P, ∀ n, Anc g p n → ¬ Anc g e n := by
    intro e he n hn
    exact sibling_disjoint s hp (hpar e (by simp [he]))
      (fun h => hnd'.2.2 e he p (by simp) h.symm) hn
  have hSp : ∀ e ∈ S, ∀ n, Anc g e n → ¬ Anc g p n := by
    intro e he n hn
    refine sibling_disjoint s (hpar e (by simp [he])) hp ?_ hn
    rintro rfl
    exact (List.nodup_cons.mp hnd'.2.1).1 he
  have hPS : ∀ e ∈ S, ∀ f ∈ P, ∀ n, Anc g e n → ¬ Anc g f n := by
    intro e he f hf n hn
    exact sibling_disjoint s (hpar e (by simp [he])) (hpar f (by simp [hf]))
      (fun h => hnd'.2.2 f hf e (by simp [he]) h.symm) hn
  have hvB := hB y v ((hanc p (by simp) y (hat.anc s)).1) (hanc p (by simp) y (hat.anc s)).2 hv.1
  unfold connect
  rw [hkids, each_append]
  have postP := each_post s hstep P 0 m lo hr (fun e he => hpar e (by simp [he])) hnd'.1
  set mP := each g.size (connectOne spoil g r) P 0 m with hmP
  have hrP : Fits g mP r w := (Fits.congr (postP.out r
    (fun e he => s.not_anc_parent (hpar e (by simp [he])))).1).mpr hr
  have hsum : 0 + (P.map g.size).sum = g.sizeSum P := by rw [Nat.zero_add]; rfl
  rw [hsum]
  have hout : ∀ n, Anc g p n → mP.arr n = m.arr n ∧ mP.owns n = m.owns n :=
    fun n hn => postP.out n (fun e he => hPp e he n hn)
  have hcellP : mP.cell v.buf (v.off + i) = m.cell v.buf (v.off + i) := by
    apply postP.cells _ _ hvB.2
    · exact fun h => hvB.1 h.1
    · exact fun h => hvB.1 h.1
    · intro e he n hn ho
      obtain ⟨h1, h2⟩ := hanc e (by simp [he]) n hn
      exact hsep n h1 (fun h => hPp e he n h hn) ho h2
  have hround : (connectOne spoil g r mP p (g.sizeSum P)).cell w.buf (w.off + g.sizeSum P + (j + i)) =
      m.cell v.buf (v.off + i) := by
    rw [connectOne_value s z spoil postP.leafOwn (g.sizeSum P) hrP hp (lt_of_lt_of_le hwn postP.next)
      (fun n v' hn h => by
        rw [(hout n hn).1] at h
        obtain ⟨h1, h2⟩ := hanc p (by simp) n hn
        have := hB n v' h1 h2 h
        exact ⟨this.1, lt_of_lt_of_le this.2 postP.next⟩) hy hat
      ((Fits.congr (hout y (hat.anc s)).1).mpr hv) hi ?_, hcellP]
    rcases ok with ⟨b, o, h⟩ | ⟨h1, h2⟩
    · refine .inl ⟨b, o, fun n q hq hpos => ?_⟩
      rw [(hout n (hq.anc s)).1, (hout n (hq.anc s)).2]
      exact h n q hq hpos
    · refine .inr ⟨fun u hu n v' hn hne h => ?_, fun c hc hcy => ?_⟩
      · rw [(hout n hn).1] at h
        exact h1 u ((Fits.congr (hout p .refl).1).mp hu) n v' hn hne h
      · obtain ⟨⟨b, o, h3⟩, h4⟩ := h2 c hc hcy
        refine ⟨⟨b, o, fun n q hq hpos => ?_⟩, fun e he hne n hn ho hhas => ?_⟩
        · have := (Anc.of_parent hc).trans (hq.anc s)
          rw [(hout n this).1, (hout n this).2]
          exact h3 n q hq hpos
        · have := (Anc.of_parent he).trans hn
          rw [(hout n this).2] at ho
          rw [Has.congr (hout n this).1] at hhas
          exact h4 e he hne n hn ho hhas
  have postp := hstep mP p (g.sizeSum P) postP.leafOwn hrP hp
  have hrp : Fits g (connectOne spoil g r mP p (g.sizeSum P)) r w :=
    (Fits.congr (postp.out r (fun e he => by
      simp at he; subst he; exact s.not_anc_parent hp)).1).mpr hrP
  have postS := each_post s hstep S (g.sizeSum P + g.size p) _ postp.leafOwn hrp
    (fun e he => hpar e (by simp [he])) (List.nodup_cons.mp hnd'.2.1).2
  have hwin := hat.window s z
  show (each g.size _ S _ (connectOne spoil g r mP p (g.sizeSum P))).cell _ _ = _
  rw [postS.cells w.buf _ (by have := postP.next; have := postp.next; omega) (by omega) (by omega),
    hround]
  rintro e he n hn - ⟨v', h1, -, h2, -⟩
  have e1 := postp.out n (fun f hf => by simp at hf; subst hf; exact hSp e he n hn)
  have e2 := postP.out n (fun f hf => hPS e he f hf n hn)
  rw [e1.1, e2.1] at h1
  obtain ⟨h3, h4⟩ := hanc e (by simp [he]) n hn
  exact (hB n v' h3 h4 h1).1 h2

/-- The arrays that the first round makes sure of. -/
def prepared (g : Graph) (m : Mem V) (r : Id) : Mem V :=
  match g.kids r with
  | [] => m
  | p :: _ => (m.ensure g p).ensure g r

theorem connect_prepared (s : Skel g) (spoil : Nat → Nat → V) (m : Mem V) (r : Id) :
    connect spoil g m r = connect spoil g (prepared g m r) r := by
  unfold connect prepared
  cases hk : g.kids r with
  | nil => rfl
  | cons p L =>
    have hp : g.parent p = some r := (s.mem_iff _ _).mp (by rw [hk]; simp)
    have hne : p ≠ r := by rintro rfl; exact s.not_anc_parent hp .refl
    have hl := s.kids_not_leaf hp
    obtain ⟨w, hw, -⟩ := ensure_exists (m.ensure g p) hl
    have h2 : ((m.ensure g p).ensure g r).ensure g p = (m.ensure g p).ensure g r := by
      cases hlp : g.leaf p with
      | true => exact ensure_leaf hlp
      | false =>
        obtain ⟨u, hu, -⟩ := ensure_exists m hlp
        exact ensure_fits ((Fits.congr (ensure_ne hne).1).mpr hu)
    simp only [each]
    congr 1
    simp only [connectOne]
    rw [h2, ensure_fits hw]

/-- The prepared state: the root has an array of the right size, and this is the old one or a new
one. -/
theorem prepared_facts (s : Skel g) {m : Mem V} (lo : LeafOwn g m) {r : Id} (hk : g.kids r ≠ []) :
    ∃ w, Fits g (prepared g m r) r w ∧ LeafOwn g (prepared g m r) ∧ m.next ≤ (prepared g m r).next ∧
      (prepared g m r).cell = m.cell ∧
      ((Fits g m r w ∧ (prepared g m r).owns r = m.owns r) ∨
        ((∀ u, ¬ Fits g m r u) ∧ m.next ≤ w.buf ∧ w.buf < (prepared g m r).next ∧ w.off = 0 ∧
          (prepared g m r).owns r = true)) ∧
      ∀ n, n ≠ r →
        ((prepared g m r).arr n = m.arr n ∧ (prepared g m r).owns n = m.owns n) ∨
        (g.leaf n = false ∧ (∀ u, ¬ Fits g m n u) ∧ (prepared g m r).arr n = some ⟨m.next, 0, g.size n⟩ ∧
          m.next < (prepared g m r).next ∧ ((∀ u, ¬ Fits g m r u) → m.next < w.buf)) := by
  cases hkk : g.kids r with
  | nil => exact absurd hkk hk
  | cons p L =>
    have hp : g.parent p = some r := (s.mem_iff _ _).mp (by rw [hkk]; simp)
    have hne : p ≠ r := by rintro rfl; exact s.not_anc_parent hp .refl
    have hl := s.kids_not_leaf hp
    have hprep : prepared g m r = (m.ensure g p).ensure g r := by unfold prepared; rw [hkk]
    obtain ⟨w, hw, hcase⟩ := ensure_exists (m.ensure g p) hl
    rw [hprep]
    have hpr : Fits g (m.ensure g p) r w ↔ Fits g m r w := Fits.congr (ensure_ne (Ne.symm hne)).1
    have hpr' : ∀ u, Fits g (m.ensure g p) r u ↔ Fits g m r u :=
      fun u => Fits.congr (ensure_ne (Ne.symm hne)).1
    refine ⟨w, hw, ensure_leafOwn (ensure_leafOwn lo p) r,
      le_trans (ensure_next m p) (ensure_next _ r), by rw [ensure_cell, ensure_cell], ?_, ?_⟩
    · rcases hcase with ⟨h1, h2⟩ | ⟨rfl, h2, h3⟩
      · left
        exact ⟨hpr.mp h2, by rw [h1]; exact (ensure_ne (Ne.symm hne)).2⟩
      · right
        refine ⟨fun u hu => h3 u ((hpr' u).mpr hu), ensure_next m p, ?_, rfl, ?_⟩
        · rw [h2]; exact Nat.lt_succ_self _
        · rw [h2]; exact upd_same _ _ _
    · intro n hn
      by_cases hnp : n = p
      · subst hnp
        rcases ensure_cases g m n with ⟨h1, -⟩ | ⟨h1, h2, h3⟩
        · left
          obtain ⟨e1, e2⟩ := ensure_ne (g := g) (m := m.ensure g n) hn
          rw [e1, e2, h1]; exact ⟨rfl, rfl⟩
        · right
          refine ⟨h2, h3, ?_, ?_, ?_⟩
          · rw [(ensure_ne hn).1, h1]; exact upd_same _ _ _
          · have := ensure_next (g := g) (m.ensure g n) r
            have h4 : (m.ensure g n).next = m.next + 1 := by rw [h1]; rfl
            omega
          · intro hr
            rcases hcase with ⟨-, h5⟩ | ⟨rfl, -, -⟩
            · exact absurd (hpr.mp h5) (hr w)
            · rw [h1]; exact Nat.lt_succ_self _
      · left
        obtain ⟨e1, e2⟩ := ensure_ne (g := g) (m := m.ensure g p) hn
        obtain ⟨e3, e4⟩ := ensure_ne (g := g) (m := m) hnp
        exact ⟨e1.trans e3, e2.trans e4⟩

/-- What connecting does to the arrays, from any state: everything below `r` becomes a window of the
array of `r`, at its position; nothing else changes. -/
theorem connect_places (s : Skel g) (z : Sized g) (spoil : Nat → Nat → V) {m : Mem V} (lo : LeafOwn g m)
    {r : Id} (hk : g.kids r ≠ []) :
    ∃ w, Fits g (connect spoil g m r) r w ∧
      (∀ y k, At g r y k → y ≠ r → (connect spoil g m r).arr y = some ⟨w.buf, w.off + k, g.size y⟩ ∧
        (connect spoil g m r).owns y = false) ∧
      (∀ y, ¬ Anc g r y → (connect spoil g m r).arr y = m.arr y ∧
        (connect spoil g m r).owns y = m.owns y) ∧
      LeafOwn g (connect spoil g m r) ∧ m.next ≤ (connect spoil g m r).next ∧
      (Fits g m r w ∧ (connect spoil g m r).owns r = m.owns r ∨
        (∀ u, ¬ Fits g m r u) ∧ m.next ≤ w.buf ∧ w.buf < (connect spoil g m r).next ∧ w.off = 0 ∧
          (connect spoil g m r).owns r = true) := by
  obtain ⟨w, hw, lo', hnx, hcell, hcase, hothers⟩ := prepared_facts s lo hk
  rw [connect_prepared s]
  have post := connect_post s z spoil lo' hw
  have hr := post.out r (fun c hc => s.not_anc_parent ((s.mem_iff _ _).mp hc))
  refine ⟨w, (Fits.congr hr.1).mpr hw, ?_, ?_, post.leafOwn, le_trans hnx post.next, ?_⟩
  · intro y k hy hne
    obtain ⟨e', A', B', hk', he'⟩ := Hier.Graph.Ins.child_above s (hy.anc s) (Ne.symm hne)
    obtain ⟨j', hj'⟩ := s.exists_at he'
    have hjj := s.at_unique hy ((At.step (.refl : At g r r 0) hk').trans hj')
    have q1 := post.inn A' e' B' hk' y j' hj'
    refine ⟨?_, q1.2⟩
    rw [q1.1]
    congr 2
    omega
  · intro y hy
    have hne : y ≠ r := by rintro rfl; exact hy .refl
    have q := post.out y (fun c hc hcy => hy ((Anc.of_parent ((s.mem_iff _ _).mp hc)).trans hcy))
    have : (prepared g m r).arr y = m.arr y ∧ (prepared g m r).owns y = m.owns y := by
      have : ∀ p, p ∈ g.kids r → y ≠ p := by
        rintro p hp rfl
        exact hy (Anc.of_parent ((s.mem_iff _ _).mp hp))
      cases hkk : g.kids r with
      | nil => exact absurd hkk hk
      | cons p L =>
        have hprep : prepared g m r = (m.ensure g p).ensure g r := by unfold prepared; rw [hkk]
        rw [hprep]
        have hnp := this p (by rw [hkk]; simp)
        obtain ⟨e1, e2⟩ := ensure_ne (g := g) (m := m.ensure g p) hne
        obtain ⟨e3, e4⟩ := ensure_ne (g := g) (m := m) hnp
        exact ⟨e1.trans e3, e2.trans e4⟩
    exact ⟨q.1.trans this.1, q.2.trans this.2⟩
  · rcases hcase with ⟨h1, h2⟩ | ⟨h1, h2, h3, h4, h5⟩
    · exact .inl ⟨h1, hr.2.trans h2⟩
    · exact .inr ⟨h1, h2, lt_of_lt_of_le h3 post.next, h4, hr.2.trans h5⟩

/-- Connecting what is connected already changes no memory in use. -/
theorem connect_calm (s : Skel g) (z : Sized g) (spoil : Nat → Nat → V) {m : Mem V} (lo : LeafOwn g m)
    {r b o : Nat} (hr : Fits g m r ⟨b, o, g.size r⟩) (hc : CalmAt g m r b o) (B i : Nat) (hB : B < m.next) :
    (connect spoil g m r).cell B i = m.cell B i := by
  have key : ∀ (L P : List Id) (m : Mem V), LeafOwn g m → Fits g m r ⟨b, o, g.size r⟩ →
      CalmAt g m r b o → g.kids r = P ++ L → ∀ B i, B < m.next →
        (each g.size (connectOne spoil g r) L (g.sizeSum P) m).cell B i = m.cell B i := by
    obtain ⟨d, hd, hb⟩ := s.rank
    intro L
    induction L with
    | nil => intro P m _ _ _ _ B i _; rfl
    | cons p L ih =>
      intro P m lo hr hcalm hk B i hB
      have hp : g.parent p = some r := (s.mem_iff _ _).mp (by rw [hk]; simp)
      have hrp : r ≠ p := by rintro rfl; exact s.not_anc_parent hp .refl
      have hat : At g r p (g.sizeSum P) := by
        have := At.step (.refl : At g r r 0) hk
        rwa [Nat.zero_add] at this
      have post := connectOne_post s z spoil lo (g.sizeSum P) hr hp
      have hcells : ∀ B i, B < m.next →
          (connectOne spoil g r m p (g.sizeSum P)).cell B i = m.cell B i := by
        intro B i hB
        by_cases hpos : 0 < g.size p
        · obtain ⟨ha, ho⟩ := hcalm p _ hat hpos
          have ho' := ho (Ne.symm hrp)
          have hf : Fits g m p ⟨b, o + g.sizeSum P, g.size p⟩ := ⟨ha, rfl⟩
          have hsp : ∀ B i, B < m.next → (spread spoil g m p b (o + g.sizeSum P)).cell B i = m.cell B i := by
            intro B i hB
            unfold spread
            rw [ensure_fits hf]
            exact propagate_calm s z spoil hd hb g.fuel p (by unfold Graph.fuel; omega) m b
              (o + g.sizeSum P) lo hf (hcalm.child s hat) B i hB
          by_cases hw : B = b ∧ o + g.sizeSum P ≤ i ∧ i < o + g.sizeSum P + g.size p
          · obtain ⟨rfl, h1, h2⟩ := hw
            have := connectOne_cell s z spoil lo (g.sizeSum P) hr hp (u := ⟨B, o + g.sizeSum P, g.size p⟩)
              (by rw [ensure_fits hf]; exact hf) (.inr (by rw [ensure_fits hf]; exact ho'))
              (j := i - (o + g.sizeSum P)) (by omega)
            simp only at this
            rw [show o + g.sizeSum P + (i - (o + g.sizeSum P)) = i by omega] at this
            rw [this]
            exact hsp B i hB
          · rw [connectOne_eq spoil hr hrp]
            obtain ⟨f1, f2, f3, f4, f5, f6⟩ := spread_facts s z spoil lo p b (o + g.sizeSum P)
            have hsp' := hsp B i hB
            show (if (spread spoil g m p b (o + g.sizeSum P)).owns p = true ∧
                B = ((spread spoil g m p b (o + g.sizeSum P)).view p).buf ∧
                ((spread spoil g m p b (o + g.sizeSum P)).view p).off ≤ i ∧
                i < ((spread spoil g m p b (o + g.sizeSum P)).view p).off +
                  ((spread spoil g m p b (o + g.sizeSum P)).view p).len then _ else
              if B = ((spread spoil g m p b (o + g.sizeSum P)).view r).buf ∧
                ((spread spoil g m p b (o + g.sizeSum P)).view r).off + g.sizeSum P ≤ i ∧
                i < ((spread spoil g m p b (o + g.sizeSum P)).view r).off + g.sizeSum P + g.size p then _
              else (spread spoil g m p b (o + g.sizeSum P)).cell B i) = _
            rw [view_eq ((f3 r (s.not_anc_parent hp)).1.trans hr.1), if_neg hw, if_neg]
            · exact hsp'
            · rintro ⟨h1, -⟩
              rw [f4.2, ensure_fits hf, ho'] at h1
              cases h1
        · apply post.cells B i hB
          · simp only [Hier.Graph.sizeSum_cons, Hier.Graph.sizeSum_nil]; omega
          · simp only [Hier.Graph.sizeSum_cons, Hier.Graph.sizeSum_nil]; omega
          · rintro e he n hn - ⟨v, h1, h2, h3, h4, h5⟩
            simp at he
            subst he
            obtain ⟨q, hq⟩ := s.exists_at hn
            have := hq.window s z
            omega
      have hcalm2 : CalmAt g (connectOne spoil g r m p (g.sizeSum P)) r b o := by
        intro y k hy hpos
        by_cases hcy : Anc g p y
        · obtain ⟨j, hj⟩ := s.exists_at hcy
          have e1 := post.inn [] p [] rfl y j hj
          have hkj := s.at_unique hy (hat.trans hj)
          refine ⟨?_, fun _ => e1.2⟩
          rw [e1.1]
          congr 2
          simp only [Hier.Graph.sizeSum_nil]
          omega
        · have e1 := post.out y (fun f hf => by simp at hf; subst hf; exact hcy)
          rw [e1.1, e1.2]
          exact hcalm y k hy hpos
      have hr2 : Fits g (connectOne spoil g r m p (g.sizeSum P)) r ⟨b, o, g.size r⟩ :=
        (Fits.congr (post.out r (fun e he => by
          simp at he; subst he; exact s.not_anc_parent hp)).1).mpr hr
      have := ih (P ++ [p]) _ post.leafOwn hr2 hcalm2 (by rw [hk]; simp) B i
        (lt_of_lt_of_le hB post.next)
      rw [Hier.Graph.sizeSum_append, Hier.Graph.sizeSum_cons, Hier.Graph.sizeSum_nil,
        Nat.add_zero] at this
      show (each g.size _ L _ (connectOne spoil g r m p (g.sizeSum P))).cell B i = _
      rw [this]
      exact hcells B i hB
  exact key (g.kids r) [] m lo hr hc rfl B i hB

end Mem

end Paramz.Memory

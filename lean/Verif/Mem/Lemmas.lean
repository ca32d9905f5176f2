import Verif.Mem.Model
import Verif.Hier.Lemmas
import Verif.Hier.Tiling

/-!
# What connecting does to memory
-/

set_option linter.unusedSectionVars false

namespace Paramz.Memory

open Hier (Id Graph upd upd_same upd_ne)
open Hier.Graph (Anc At Skel Sized)

variable {V : Type} {g : Graph}

/-- Element `i` of buffer `B` belongs to the array of `y`, and the array has the size of `y`. -/
def Has (g : Graph) (m : Mem V) (y : Id) (B i : Nat) : Prop :=
  ∃ v, m.arr y = some v ∧ v.len = g.size y ∧ v.buf = B ∧ v.off ≤ i ∧ i < v.off + v.len

/-- The arrays of everything in the tree of `n` are windows of one buffer, at the positions the elements
have in `n`, and only `n` itself may own it. (Objects without elements do not matter.) -/
def Calm (g : Graph) (m : Mem V) (n : Id) : Prop :=
  ∃ b o, ∀ y k, At g n y k → 0 < g.size y →
    m.arr y = some ⟨b, o + k, g.size y⟩ ∧ (y ≠ n → m.owns y = false)

/-- No `Param` owns its memory. -/
def LeafOwn (g : Graph) (m : Mem V) : Prop := ∀ y, g.leaf y = true → m.owns y = false

/-- The array of `x` has the right size. -/
def Fits (g : Graph) (m : Mem V) (x : Id) (w : View) : Prop := m.arr x = some w ∧ w.len = g.size x

namespace Mem

theorem ensure_fits {m : Mem V} {x : Id} {w : View} (h : Fits g m x w) : m.ensure g x = m := by
  unfold ensure
  split
  · rfl
  · rw [h.1]; simp only [h.2, if_true]

theorem ensure_leaf {m : Mem V} {x : Id} (h : g.leaf x = true) : m.ensure g x = m := by
  unfold ensure; rw [if_pos h]

theorem ensure_cases (g : Graph) (m : Mem V) (x : Id) :
    (m.ensure g x = m ∧ (g.leaf x = false → ∃ w, Fits g m x w)) ∨
    (m.ensure g x = m.alloc x (g.size x) ∧ g.leaf x = false ∧ ∀ w, ¬ Fits g m x w) := by
  unfold ensure
  cases hl : g.leaf x with
  | true => left; simp
  | false =>
    simp only [Bool.false_eq_true, if_false]
    cases ha : m.arr x with
    | none => right; exact ⟨rfl, trivial, fun w hw => by rw [hw.1] at ha; cases ha⟩
    | some v =>
      simp only
      split
      · rename_i hv; left; exact ⟨rfl, fun _ => ⟨v, ha, hv⟩⟩
      · rename_i hv
        right
        refine ⟨rfl, trivial, fun w hw => hv ?_⟩
        have := hw.1
        rw [ha] at this
        cases this
        exact hw.2

theorem ensure_cell (m : Mem V) (x : Id) : (m.ensure g x).cell = m.cell := by
  rcases ensure_cases g m x with ⟨h, -⟩ | ⟨h, -, -⟩ <;> rw [h]; rfl

theorem ensure_ne {m : Mem V} {x y : Id} (h : y ≠ x) :
    (m.ensure g x).arr y = m.arr y ∧ (m.ensure g x).owns y = m.owns y := by
  rcases ensure_cases g m x with ⟨he, -⟩ | ⟨he, -, -⟩ <;> rw [he]
  · exact ⟨rfl, rfl⟩
  · exact ⟨upd_ne _ _ h, upd_ne _ _ h⟩

theorem ensure_next (m : Mem V) (x : Id) : m.next ≤ (m.ensure g x).next := by
  rcases ensure_cases g m x with ⟨h, -⟩ | ⟨h, -, -⟩ <;> rw [h]
  show m.next ≤ m.next + 1
  omega

theorem ensure_leafOwn {m : Mem V} (lo : LeafOwn g m) (x : Id) : LeafOwn g (m.ensure g x) := by
  rcases ensure_cases g m x with ⟨h, -⟩ | ⟨h, hl, -⟩ <;> rw [h]
  · exact lo
  · intro y hy
    have : y ≠ x := by rintro rfl; rw [hl] at hy; cases hy
    show upd m.owns x true y = false
    rw [upd_ne _ _ this]; exact lo y hy

theorem view_eq {m : Mem V} {x : Id} {w : View} (h : m.arr x = some w) : m.view x = w := by
  unfold view; rw [h]; rfl

/-! ### The loop of `_propagate_param_grad` -/

/-- One round. -/
def propOne (spoil : Nat → Nat → V) (g : Graph) (n : Nat) (x : Id) (b o : Nat) (m : Mem V) (c : Id)
    (k : Nat) : Mem V :=
  propagateF spoil g n
    (rebind spoil (((m.ensure g c).ensure g x).assign x k c (g.size c)) c ⟨b, o + k, g.size c⟩)
    c b (o + k)

theorem propagateF_succ (spoil : Nat → Nat → V) (n : Nat) (m : Mem V) (x : Id) (b o : Nat) :
    propagateF spoil g (n + 1) m x b o =
      each g.size (propOne spoil g n x b o) (g.kids x) 0 m := rfl

theorem each_append (size : Id → Nat) (f : Mem V → Id → Nat → Mem V) (L M : List Id) (k : Nat)
    (m : Mem V) : each size f (L ++ M) k m = each size f M (k + (L.map size).sum) (each size f L k m) := by
  induction L generalizing k m with
  | nil => simp [each]
  | cons c L ih =>
    simp only [List.cons_append, each, ih, List.map_cons, List.sum_cons, Nat.add_assoc]

/-- What a loop over the children `L` of `x` from position `k` does, if every array of their trees goes
to its place in the window of buffer `b` at `o`, and otherwise only the array `w` of `x`, arrays that
own their memory and the arrays in `Q` are written. -/
structure LoopPost (Q : Id → Prop) (g : Graph) (m m' : Mem V) (w : View) (L : List Id) (k b o : Nat) : Prop where
  next : m.next ≤ m'.next
  leafOwn : LeafOwn g m'
  out : ∀ y, (∀ c ∈ L, ¬ Anc g c y) → m'.arr y = m.arr y ∧ m'.owns y = m.owns y
  inn : ∀ A c B, L = A ++ c :: B → ∀ y j, At g c y j →
    m'.arr y = some ⟨b, o + k + g.sizeSum A + j, g.size y⟩ ∧ m'.owns y = false
  cells : ∀ B i, B < m.next → ¬ (B = b ∧ o + k ≤ i ∧ i < o + k + g.sizeSum L) →
    ¬ (B = w.buf ∧ w.off + k ≤ i ∧ i < w.off + k + g.sizeSum L) →
    (∀ c ∈ L, ∀ y, Anc g c y → (m.owns y = true ∨ Q y) → ¬ Has g m y B i) → m'.cell B i = m.cell B i

theorem LoopPost.nil {Q : Id → Prop} {m : Mem V} (lo : LeafOwn g m) (w : View) (k b o : Nat) :
    LoopPost Q g m m w [] k b o where
  next := le_refl _
  leafOwn := lo
  out := fun _ _ => ⟨rfl, rfl⟩
  inn := fun A c B h => absurd h (by simp)
  cells := fun _ _ _ _ _ _ => rfl

/-- Two siblings have no common descendants. -/
theorem sibling_disjoint (s : Skel g) {x c d y : Id} (hc : g.parent c = some x) (hd : g.parent d = some x)
    (hne : c ≠ d) (h1 : Anc g c y) : ¬ Anc g d y := by
  intro h2
  rcases h1.total h2 with h | h
  · rcases (Hier.Graph.anc_iff_of_parent hd).mp h with h | h
    · exact hne h
    · exact s.not_anc_parent hc h
  · rcases (Hier.Graph.anc_iff_of_parent hc).mp h with h | h
    · exact hne h.symm
    · exact s.not_anc_parent hd h

/-- Putting a round in front. -/
theorem LoopPost.cons {Q : Id → Prop} (s : Skel g) {m m1 m' : Mem V} {w : View} {x c : Id} {L : List Id} {k b o : Nat}
    (hk : ∀ e ∈ c :: L, g.parent e = some x) (hnd : (c :: L).Nodup)
    (h1 : LoopPost Q g m m1 w [c] k b o)
    (h2 : LoopPost Q g m1 m' w L (k + g.size c) b o) : LoopPost Q g m m' w (c :: L) k b o := by
  have hdis : ∀ y, Anc g c y → ∀ e ∈ L, ¬ Anc g e y := by
    intro y hy e he
    refine sibling_disjoint s (hk c (by simp)) (hk e (by simp [he])) ?_ hy
    rintro rfl; exact (List.nodup_cons.mp hnd).1 he
  constructor
  · exact le_trans h1.next h2.next
  · exact h2.leafOwn
  · intro y hy
    have e1 := h1.out y (fun e he => hy e (by simp at he; simp [he]))
    have e2 := h2.out y (fun e he => hy e (by simp [he]))
    exact ⟨e2.1.trans e1.1, e2.2.trans e1.2⟩
  · intro A e B he y j hy
    cases A with
    | nil =>
      simp only [List.nil_append, List.cons.injEq] at he
      obtain ⟨rfl, rfl⟩ := he
      have e1 := h1.inn [] c [] rfl y j hy
      have e2 := h2.out y (hdis y (hy.anc s))
      exact ⟨e2.1.trans e1.1, e2.2.trans e1.2⟩
    | cons a A =>
      simp only [List.cons_append, List.cons.injEq] at he
      obtain ⟨rfl, he⟩ := he
      have e2 := h2.inn A e B he y j hy
      rw [Hier.Graph.sizeSum_cons]
      refine ⟨?_, e2.2⟩
      rw [e2.1]
      congr 2
      omega
  · intro B i hB hb hw ho
    rw [Hier.Graph.sizeSum_cons] at hb hw
    have e1 : m1.cell B i = m.cell B i := by
      apply h1.cells B i hB
      · simp only [Hier.Graph.sizeSum_cons, Hier.Graph.sizeSum_nil]; omega
      · simp only [Hier.Graph.sizeSum_cons, Hier.Graph.sizeSum_nil]; omega
      · intro e he; exact ho e (by simp at he; simp [he])
    rw [← e1]
    apply h2.cells B i (lt_of_lt_of_le hB h1.next)
    · omega
    · omega
    · intro e he y hy hown hhas
      have e2 := h1.out y (by
        intro d hd
        simp at hd
        subst hd
        intro hdy
        exact hdis y hdy e he hy)
      refine ho e (by simp [he]) y hy (by rw [← e2.2]; exact hown) ?_
      obtain ⟨v, hv⟩ := hhas
      exact ⟨v, by rw [← e2.1]; exact hv.1, hv.2⟩

/-- The state in which a round starts to descend: the array of the child has moved. -/
def moved (spoil : Nat → Nat → V) (g : Graph) (x : Id) (b o : Nat) (m : Mem V) (c : Id) (k : Nat) : Mem V :=
  rebind spoil (((m.ensure g c).ensure g x).assign x k c (g.size c)) c ⟨b, o + k, g.size c⟩

theorem moved_eq (spoil : Nat → Nat → V) {m : Mem V} {x c : Id} {w : View} (b o k : Nat)
    (hx : Fits g m x w) (hne : x ≠ c) :
    moved spoil g x b o m c k =
      rebind spoil ((m.ensure g c).assign x k c (g.size c)) c ⟨b, o + k, g.size c⟩ ∧
    Fits g (m.ensure g c) x w := by
  have h : Fits g (m.ensure g c) x w := ⟨by rw [(ensure_ne hne).1]; exact hx.1, hx.2⟩
  refine ⟨?_, h⟩
  unfold moved
  rw [ensure_fits h]

theorem moved_post (spoil : Nat → Nat → V) {m : Mem V} (lo : LeafOwn g m) {x c : Id} {w : View} (b o k : Nat)
    (hx : Fits g m x w) (hne : x ≠ c) :
    m.next ≤ (moved spoil g x b o m c k).next ∧ LeafOwn g (moved spoil g x b o m c k) ∧
    (∀ y, y ≠ c → (moved spoil g x b o m c k).arr y = m.arr y ∧
      (moved spoil g x b o m c k).owns y = m.owns y) ∧
    Fits g (moved spoil g x b o m c k) c ⟨b, o + k, g.size c⟩ ∧
    (moved spoil g x b o m c k).owns c = false ∧
    (∀ B i, B < m.next → ¬ (B = w.buf ∧ w.off + k ≤ i ∧ i < w.off + k + g.size c) →
      (m.owns c = true → ¬ Has g m c B i) → (moved spoil g x b o m c k).cell B i = m.cell B i) := by
  obtain ⟨he, hx'⟩ := moved_eq spoil b o k hx hne
  rw [he]
  refine ⟨ensure_next m c, ?_, ?_, ⟨upd_same _ _ _, rfl⟩, upd_same _ _ _, ?_⟩
  · intro y hy
    show upd (m.ensure g c).owns c false y = false
    by_cases hyc : y = c
    · subst hyc; exact upd_same _ _ _
    · rw [upd_ne _ _ hyc]; exact ensure_leafOwn lo c y hy
  · intro y hy
    exact ⟨(upd_ne _ _ hy).trans (ensure_ne hy).1, (upd_ne _ _ hy).trans (ensure_ne hy).2⟩
  · intro B i hB hw ho
    have hfree : ¬ ((m.ensure g c).owns c = true ∧ B = ((m.ensure g c).view c).buf ∧
        ((m.ensure g c).view c).off ≤ i ∧
        i < ((m.ensure g c).view c).off + ((m.ensure g c).view c).len) := by
      rintro ⟨h1, h2, h3, h4⟩
      rcases ensure_cases g m c with ⟨h, hf⟩ | ⟨h, hl, -⟩
      · rw [h] at h1 h2 h3 h4
        have hl : g.leaf c = false := by
          by_contra hc
          rw [Bool.not_eq_false] at hc
          rw [lo c hc] at h1; cases h1
        obtain ⟨v, hv⟩ := hf hl
        rw [view_eq hv.1] at h2 h3 h4
        exact ho h1 ⟨v, hv.1, hv.2, h2.symm, h3, h4⟩
      · rw [h] at h2
        have : (m.alloc c (g.size c)).view c = ⟨m.next, 0, g.size c⟩ := view_eq (upd_same _ _ _)
        rw [this] at h2
        simp only at h2
        omega
    show (if (m.ensure g c).owns c = true ∧ B = ((m.ensure g c).view c).buf ∧
        ((m.ensure g c).view c).off ≤ i ∧
        i < ((m.ensure g c).view c).off + ((m.ensure g c).view c).len then spoil B i
        else ((m.ensure g c).assign x k c (g.size c)).cell B i) = _
    rw [if_neg hfree]
    show (if B = ((m.ensure g c).view x).buf ∧ ((m.ensure g c).view x).off + k ≤ i ∧
      i < ((m.ensure g c).view x).off + k + g.size c then _ else (m.ensure g c).cell B i) = _
    rw [view_eq hx'.1, if_neg hw, ensure_cell]

theorem propOne_post (s : Skel g) (z : Sized g) (spoil : Nat → Nat → V) {n : Nat} {x c : Id} {m : Mem V}
    (lo : LeafOwn g m) {w : View} (b o k : Nat) (hx : Fits g m x w) (hc : g.parent c = some x)
    (ih : ∀ m w b o, LeafOwn g m → Fits g m c w →
      LoopPost (fun _ => False) g m (propagateF spoil g n m c b o) w (g.kids c) 0 b o) :
    LoopPost (fun _ => False) g m (propOne spoil g n x b o m c k) w [c] k b o := by
  have hne : x ≠ c := by
    rintro rfl; exact s.not_anc_parent hc .refl
  obtain ⟨p1, p2, p3, p4, p5, p6⟩ := moved_post spoil lo b o k hx hne
  rw [show propOne spoil g n x b o m c k =
      propagateF spoil g n (moved spoil g x b o m c k) c b (o + k) from rfl]
  have q := ih _ _ b (o + k) p2 p4
  set m1 := moved spoil g x b o m c k
  have hsub : ∀ y, y ≠ c → Anc g c y → ∃ e ∈ g.kids c, Anc g e y := by
    intro y hy ha
    obtain ⟨e, A', B', hk, he⟩ := Hier.Graph.Ins.child_above s ha (Ne.symm hy)
    exact ⟨e, by rw [hk]; simp, he⟩
  have hcc : ∀ e ∈ g.kids c, ¬ Anc g e c := fun e he => s.not_anc_parent ((s.mem_iff _ _).mp he)
  constructor
  · exact le_trans p1 q.next
  · exact q.leafOwn
  · intro y hy
    have hyc := hy c (by simp)
    have hne : y ≠ c := by rintro rfl; exact hyc .refl
    have q1 := q.out y (fun e he hey => hyc ((Anc.of_parent ((s.mem_iff _ _).mp he)).trans hey))
    exact ⟨q1.1.trans (p3 y hne).1, q1.2.trans (p3 y hne).2⟩
  · intro A e B he y j hy
    have hA : A = [] ∧ e = c := by
      cases A with
      | nil => simp at he; exact ⟨rfl, he.1.symm⟩
      | cons a A => simp at he
    obtain ⟨rfl, hec⟩ := hA
    subst hec
    by_cases hye : y = e
    · subst hye
      have hj := s.at_self hy
      subst hj
      have q1 := q.out y hcc
      refine ⟨?_, q1.2.trans p5⟩
      rw [q1.1, p4.1]; simp
    · obtain ⟨e', A', B', hk, he'⟩ := Hier.Graph.Ins.child_above s (hy.anc s) (Ne.symm hye)
      obtain ⟨j', hj'⟩ := s.exists_at he'
      have h0 := (At.step (.refl : At g e e 0) hk).trans hj'
      have hjj := s.at_unique hy h0
      have q1 := q.inn A' e' B' hk y j' hj'
      refine ⟨?_, q1.2⟩
      rw [q1.1]
      congr 2
      simp
      omega
  · intro B i hB hb hw ho
    simp only [Hier.Graph.sizeSum_cons, Hier.Graph.sizeSum_nil, Nat.add_zero] at hb hw
    have hsz : g.sizeSum (g.kids c) ≤ g.size c := by
      cases hl : g.leaf c with
      | true => rw [s.leaf c hl]; simp
      | false => rw [← z c hl]
    rw [← p6 B i hB hw (fun h => ho c (by simp) c .refl (.inl h))]
    apply q.cells B i (lt_of_lt_of_le hB p1)
    · omega
    · simp only; omega
    · intro e he y hey hown hhas
      have hyc : y ≠ c := by rintro rfl; exact hcc e he hey
      refine ho c (by simp) y ((Anc.of_parent ((s.mem_iff _ _).mp he)).trans hey)
        (by rw [← (p3 y hyc).2]; exact hown) ?_
      obtain ⟨v, hv⟩ := hhas
      exact ⟨v, by rw [← (p3 y hyc).1]; exact hv.1, hv.2⟩

/-- The loop over a list of children. -/
theorem each_post {Q : Id → Prop} (s : Skel g) {f : Mem V → Id → Nat → Mem V} {x : Id} {w : View} {b o : Nat}
    (hf : ∀ m c k, LeafOwn g m → Fits g m x w → g.parent c = some x → LoopPost Q g m (f m c k) w [c] k b o) :
    ∀ (L : List Id) (k : Nat) (m : Mem V), LeafOwn g m → Fits g m x w → (∀ c ∈ L, g.parent c = some x) →
      L.Nodup → LoopPost Q g m (each g.size f L k m) w L k b o
  | [], k, m, lo, _, _, _ => LoopPost.nil lo w k b o
  | c :: L, k, m, lo, hx, hk, hnd => by
    have h1 := hf m c k lo hx (hk c (by simp))
    have hx1 : Fits g (f m c k) x w := by
      have := h1.out x (fun e he => by
        simp at he; subst he; exact s.not_anc_parent (hk e (by simp)))
      exact ⟨by rw [this.1]; exact hx.1, hx.2⟩
    exact LoopPost.cons s hk hnd h1
      (each_post s hf L (k + g.size c) (f m c k) h1.leafOwn hx1 (fun e he => hk e (by simp [he]))
        (List.nodup_cons.mp hnd).2)

/-- `_propagate_param_grad` of an object whose array has the right size. -/
theorem propagate_post (s : Skel g) (z : Sized g) (spoil : Nat → Nat → V) {d : Id → Nat}
    (hd : ∀ c p, g.parent c = some p → d p < d c) (hb : ∀ x, d x ≤ g.next) :
    ∀ (n : Nat) (x : Id), g.next < n + d x → ∀ (m : Mem V) (w : View) (b o : Nat), LeafOwn g m →
      Fits g m x w → LoopPost (fun _ => False) g m (propagateF spoil g n m x b o) w (g.kids x) 0 b o
  | 0, x, h => absurd (hb x) (by omega)
  | n + 1, x, h => by
    intro m w b o lo hx
    rw [propagateF_succ]
    refine each_post s (fun m c k lo hx hc => ?_) (g.kids x) 0 m lo hx
      (fun c hc => (s.mem_iff _ _).mp hc) (s.nodup x)
    have := hd _ _ hc
    exact propOne_post s z spoil lo b o k hx hc (fun m w b o lo hw =>
      propagate_post s z spoil hd hb n c (by omega) m w b o lo hw)

end Mem

end Paramz.Memory

import Verif.Mem.Tidy

/-!
# Values when a hierarchy is copied
-/

set_option linter.unusedSectionVars false

namespace Paramz.Memory

open Hier (Id Graph Heap upd upd_same upd_ne)
open Hier.Graph (Skel Sized At Anc)

variable {V : Type} {g : Graph}

/-- What `__setstate__` of the objects below `y` does: the `Param`s in `N` keep their values, all else
keeps its array, and the objects below `y` share memory. -/
structure SetMem (N : Id → Prop) (g : Graph) (m m' : Mem V) (y : Id) : Prop where
  sound : SoundOn N g m'
  keeps : ∀ i, N i → g.leaf i = true → i < g.next → Keeps g m m' i
  others : ∀ i, ¬ Anc g y i → m'.arr i = m.arr i ∧ m'.owns i = m.owns i
  calm : Calm g m' y

namespace Mem

theorem calm_others {m m' : Mem V} {y : Id} (s : Skel g) (h : Calm g m y)
    (ha : ∀ i, Anc g y i → m'.arr i = m.arr i ∧ m'.owns i = m.owns i) : Calm g m' y := by
  obtain ⟨b, o, h⟩ := h
  refine ⟨b, o, fun i k hi hp => ?_⟩
  rw [(ha i (hi.anc s)).1, (ha i (hi.anc s)).2]
  exact h i k hi hp

theorem setstate_values_fold (s : Skel g) {spoil : Nat → Nat → V} {N : Id → Prop} {n : Nat} {y : Id}
    (hn : ∀ m c, g.parent c = some y → SoundOn N g m → (∀ i, Anc g c i → g.leaf i = false → m.arr i = none) →
      SetMem N g m (setstateF spoil g n m c) c) :
    ∀ (L : List Id) (m : Mem V), (∀ c ∈ L, g.parent c = some y) → L.Nodup → SoundOn N g m →
      (∀ c ∈ L, ∀ i, Anc g c i → g.leaf i = false → m.arr i = none) →
      SoundOn N g (L.foldl (fun m c => setstateF spoil g n m c) m) ∧
      (∀ i, N i → g.leaf i = true → i < g.next →
        Keeps g m (L.foldl (fun m c => setstateF spoil g n m c) m) i) ∧
      (∀ i, (∀ c ∈ L, ¬ Anc g c i) →
        (L.foldl (fun m c => setstateF spoil g n m c) m).arr i = m.arr i ∧
        (L.foldl (fun m c => setstateF spoil g n m c) m).owns i = m.owns i) ∧
      (∀ c ∈ L, Calm g (L.foldl (fun m c => setstateF spoil g n m c) m) c)
  | [], m, _, _, S, _ => ⟨S, fun i _ _ _ => Keeps.refl m i, fun _ _ => ⟨rfl, rfl⟩, fun c hc => by cases hc⟩
  | c :: L, m, hL, hnd, S, h0 => by
    have hc := hL c (by simp)
    have a := hn m c hc S (h0 c (by simp))
    rw [List.nodup_cons] at hnd
    have hsib : ∀ d ∈ L, ∀ i, Anc g d i → ¬ Anc g c i := by
      intro d hd i hi
      refine sibling_disjoint s (hL d (by simp [hd])) hc ?_ hi
      rintro rfl; exact hnd.1 hd
    obtain ⟨b1, b2, b3, b4⟩ := setstate_values_fold s hn L (setstateF spoil g n m c)
      (fun d hd => hL d (by simp [hd])) hnd.2 a.sound (by
        intro d hd i hi hl
        rw [(a.others i (hsib d hd i hi)).1]
        exact h0 d (by simp [hd]) i hi hl)
    rw [List.foldl_cons]
    refine ⟨b1, fun i h1 h2 h3 => (a.keeps i h1 h2 h3).trans (b2 i h1 h2 h3), ?_, ?_⟩
    · intro i hi
      have h1 := b3 i (fun d hd => hi d (by simp [hd]))
      have h2 := a.others i (hi c (by simp))
      exact ⟨h1.1.trans h2.1, h1.2.trans h2.2⟩
    · intro d hd
      rcases List.mem_cons.mp hd with rfl | hd
      · exact calm_others s a.calm (fun i hi => b3 i (fun e he h => hsib e he i h hi))
      · exact b4 d hd

theorem setstateF_values (s : Skel g) (z : Sized g) (spoil : Nat → Nat → V) {N : Id → Prop} {d : Id → Nat}
    (hd : ∀ c p, g.parent c = some p → d p < d c) {M : Nat} (hM : ∀ x, d x ≤ M) :
    ∀ (n : Nat) (m : Mem V) (y : Id), M < d y + n → y < g.next → (∀ i, Anc g y i → N i) → SoundOn N g m →
      (∀ i, Anc g y i → g.leaf i = false → m.arr i = none) →
      SetMem N g m (setstateF spoil g n m y) y
  | 0, m, y, hf, _, _, _, _ => absurd (hM y) (by omega)
  | n + 1, m, y, hf, hy, hN, S, h0 => by
    obtain ⟨b1, b2, b3, b4⟩ := setstate_values_fold (y := y) s (spoil := spoil) (N := N) (n := n)
      (fun m c hc S' h0' => setstateF_values s z spoil hd hM n m c (by have := hd _ _ hc; omega)
        (s.alloc _ _ hc).1 (fun i hi => hN i ((Anc.of_parent hc).trans hi)) S' h0')
      (g.kids y) m (fun c hc => (s.mem_iff _ _).mp hc) (s.nodup y) S
      (fun c hc i hi => h0 i ((Anc.of_parent ((s.mem_iff _ _).mp hc)).trans hi))
    have harr := b3 y (fun c hc => s.not_anc_parent ((s.mem_iff _ _).mp hc))
    have hout : ∀ i, ¬ Anc g y i → ∀ c ∈ g.kids y, ¬ Anc g c i :=
      fun i hi c hc h => hi ((Anc.of_parent ((s.mem_iff _ _).mp hc)).trans h)
    unfold setstateF
    simp only []
    set m1 := (g.kids y).foldl (fun m c => setstateF spoil g n m c) m with hm1
    cases hl : g.leaf y with
    | true =>
      rw [if_pos rfl]
      obtain ⟨v, hv⟩ := b1.lf y hy hl
      exact ⟨b1, b2, fun i hi => b3 i (hout i hi), calm_leaf s hl hv⟩
    | false =>
      rw [if_neg (by simp)]
      have hnone : m1.arr y = none := harr.1.trans (h0 y .refl hl)
      have hcalm := connect_below s z spoil b1.lo b1.lf hy (.refl : Anc g y y)
      by_cases hk : g.kids y = []
      · rw [connect_nil spoil m1 hk] at hcalm ⊢
        exact ⟨b1, b2, fun i hi => b3 i (hout i hi), hcalm⟩
      · obtain ⟨c1, c2, c3⟩ := connect_freshOn s z spoil b1 hN hk
          (fun u hu => by have := hu.1; rw [hnone] at this; cases this)
        refine ⟨c1, ?_, ?_, hcalm⟩
        · intro i h1 h2 h3
          refine (b2 i h1 h2 h3).trans ?_
          by_cases ha : Anc g y i
          · have hne : y ≠ i := by rintro rfl; rw [hl] at h2; cases h2
            obtain ⟨e, A, B, hk', he⟩ := Hier.Graph.Ins.child_above s ha hne
            have hpe := s.parent_of hk'
            exact c3 e i h2 hpe he (.inl (b4 e ((s.mem_iff _ _).mpr hpe)))
          · exact c2 i h1 h2 h3 ha
        · intro i hi
          have h1 := b3 i (hout i hi)
          have h2 := connect_out s z spoil b1.lo hi
          exact ⟨h2.1.trans h1.1, h2.2.trans h1.2⟩

end Mem

namespace State

variable {T : Type} [DecidableEq T] {spoil : Nat → Nat → V}

/-- The new objects of a copy of `x`. -/
def NewOf (h : Heap T) (x i : Id) : Prop := ∃ y, Anc h.toGraph x y ∧ i = h.copyOf x y

theorem rawCopy_soundOn {h : Heap T} (sk : Skel h.toGraph) {m : Mem V} (hb : Bounded m)
    (lo : LeafOwn h.toGraph m) (lf : LeafFits V h.toGraph m) (x : Id) :
    SoundOn (NewOf h x) (h.rawCopy x).toGraph (m.rawCopy h.toGraph x) := by
  obtain ⟨b1, b2, b3, -, -, -, b7, -⟩ := rawCopy_facts sk hb lo lf x
  refine ⟨b1, b2, ?_, b3⟩
  rintro n y B i ⟨a, ha, rfl⟩ ⟨b, hb', rfl⟩ - ⟨v, h1, -, h3, -⟩ ⟨u, k1, -, k3, -⟩
  rw [b7 a ha] at h1
  rw [b7 b hb'] at k1
  split at h1
  · split at k1
    · cases h1; cases k1
      simp only at h3 k3
      have : a = b := (List.idxOf_inj (sk.mem_subtree.mpr ha)).mp (by omega)
      subst this
      exact .refl
    · cases k1
  · cases h1

theorem arrayRead_read {s : State V T} (l : Linked s) (hb : Bounded s.mem) (x : Id) {y : Id}
    (hl : s.heap.leaf y = true) (i : Nat) : (s.arrayRead x).read y i = s.mem.read y i := by
  obtain ⟨-, -, -, -, a5, a6⟩ := arrayRead_facts l hb x
  have h1 := a6 y (by
    by_cases hyx : y = x
    · subst hyx; exact .inr (.inl hl)
    · exact .inl hyx)
  unfold Mem.read Mem.view
  rw [h1.1, a5]

/-- The `Param`s of the copy have the values of the originals, and arrays of the copy contain elements
only of the `Param`s below them. -/
theorem copy_sound {s : State V T} (w : s.heap.WF) (l : Linked s) (hb : Bounded s.mem) {x : Id}
    (hx : x < s.heap.next) :
    SoundOn (NewOf s.heap x) (s.heap.rawCopy x).toGraph (s.copy spoil x).1.mem ∧
    (∀ y, Anc s.heap.toGraph x y → s.heap.leaf y = true → ∀ i, i < s.heap.size y →
      (s.copy spoil x).1.mem.read (s.heap.copyOf x y) i = s.mem.read y i) ∧
    (s.heap.leaf x = false → ∀ n, Anc s.heap.toGraph x n → (n ≠ x ∨ s.heap.kids n ≠ []) →
      ∃ v, Fits (s.heap.rawCopy x).toGraph (s.copy spoil x).1.mem (s.heap.copyOf x n) v) := by
  have sk := w.skel
  have sk' := Heap.raw_skel sk hx
  have z' : Sized (s.heap.rawCopy x).toGraph := Heap.raw_sized sk w.sized
  obtain ⟨a1, a2, a3, a4, a5, a6⟩ := arrayRead_facts l hb x
  obtain ⟨-, -, -, -, -, -, b7, b8⟩ := rawCopy_facts sk a3 a1 a2 x
  have S := rawCopy_soundOn sk a3 a1 a2 x
  have hme := copy_mem_eq spoil s x
  obtain ⟨d, hd, hM⟩ := sk'.rank
  have hclt : s.heap.copyOf x x < (s.heap.rawCopy x).toGraph.next := Heap.copyOf_lt sk .refl
  have key := Mem.setstateF_values sk' z' spoil hd hM (s.heap.rawCopy x).toGraph.fuel
    ((s.arrayRead x).rawCopy s.heap.toGraph x) (s.heap.copyOf x x)
    (by unfold Graph.fuel; omega) hclt (fun i hi => Heap.raw_anc_inv sk hi) S (by
      intro i hi hl
      obtain ⟨y, hy, rfl⟩ := Heap.raw_anc_inv sk hi
      have hl : (s.heap.rawCopy x).leaf (s.heap.copyOf x y) = false := hl
      rw [Heap.raw_leaf_new sk hy] at hl
      rw [b7 y hy, if_neg (by rw [hl]; simp)])
  set g' := (s.heap.rawCopy x).toGraph with hg'
  set m1 := (s.arrayRead x).rawCopy s.heap.toGraph x with hm1
  set m2 := m1.setstateF spoil g' g'.fuel (s.heap.copyOf x x) with hm2
  have hval : ∀ m' : Mem V, (∀ y, g'.leaf y = true → y < g'.next → Keeps g' m2 m' y) →
      ∀ y, Anc s.heap.toGraph x y → s.heap.leaf y = true → ∀ i, i < s.heap.size y →
        m'.read (s.heap.copyOf x y) i = s.mem.read y i := by
    intro m' hm' y hy hl i hi
    have hl' : g'.leaf (s.heap.copyOf x y) = true := (Heap.raw_leaf_new sk hy).trans hl
    have hi' : i < g'.size (s.heap.copyOf x y) := by
      rw [show g'.size (s.heap.copyOf x y) = s.heap.size y from Heap.raw_size_new sk hy]; exact hi
    have hlt : s.heap.copyOf x y < g'.next := Heap.copyOf_lt sk hy
    rw [hm' _ hl' hlt i hi', key.keeps _ ⟨y, hy, rfl⟩ hl' hlt i hi', hm1, b8 y hy hl i hi]
    exact arrayRead_read l hb x hl i
  cases hl : s.heap.leaf x with
  | true =>
    have he : (s.copy spoil x).1.mem = m2 := by rw [hme]; simp only [hl, if_true]
    rw [he]
    exact ⟨key.sound, hval m2 (fun y _ _ => Keeps.refl m2 y), fun h => by cases h⟩
  | false =>
    have he : (s.copy spoil x).1.mem = m2.connect spoil g' (s.heap.copyOf x x) := by
      rw [hme]; simp only [hl]; rfl
    rw [he]
    obtain ⟨c1, -, c3⟩ := Mem.connect_settledOn sk' z' spoil key.sound key.calm
    refine ⟨c1, hval _ c3, fun _ n hn hk => ?_⟩
    refine connect_full sk' z' spoil key.sound.lo (Heap.raw_anc sk hn) ?_
    rcases hk with h | h
    · exact .inl (fun e => h (Heap.copyOf_inj sk hn e))
    · right
      rw [show g'.kids (s.heap.copyOf x n) = (s.heap.kids n).map (s.heap.copyOf x) from
        Heap.raw_kids_new sk hn]
      simpa using h

theorem raw_anc_old {h : Heap T} {x : Id} (sk : Skel h.toGraph) {n y : Id} (hy : y < h.next)
    (ha : Anc h.toGraph n y) : Anc (h.rawCopy x).toGraph n y := by
  induction ha with
  | refl => exact .refl
  | step _ hp ih =>
    obtain ⟨h1, h2⟩ := sk.alloc _ _ hp
    exact .step (ih h2) ((Heap.lift_old _ _ h1).trans hp)

theorem raw_anc_of_old {h : Heap T} {x : Id} (sk : Skel h.toGraph) (hx : x < h.next) {n y : Id}
    (hn : n < h.next) (ha : Anc (h.rawCopy x).toGraph n y) : y < h.next ∧ Anc h.toGraph n y := by
  have sk' := Heap.raw_skel sk hx
  obtain ⟨k, hk⟩ := sk'.exists_at ha
  obtain ⟨h1, h2⟩ := Heap.raw_at_old sk hn hk
  exact ⟨h1, h2.anc sk⟩

/-- The copies of a hierarchy outside of constructors have been initialised. -/
theorem copy_done_new {s : State V T} (w : s.heap.WF) {x y : Id} (hx : x < s.heap.next)
    (hl : s.heap.leaf x = false) (hy : Anc s.heap.toGraph x y) (hi : s.heap.inInit y = false) :
    Done (s.copy spoil x).1.heap (s.heap.copyOf x y) := by
  rw [(copy_heap spoil s x).1]
  obtain ⟨c, -⟩ := Heap.copy_copied w.skel hx
  obtain ⟨F, W, hB⟩ := Heap.beforeCopy_eq s.heap x
  rw [hB] at c
  exact ⟨(c.inInitNew y hy).trans hi, c.new hl y hy⟩

theorem copy_tidy {s : State V T} (w : s.heap.WF) (l : Linked s) (t : Tidy s) {x : Id}
    (hx : x < s.heap.next) (hs : Settled s.heap x) : Tidy (s.copy spoil x).1 := by
  have hb : Bounded s.mem := t.sound.bd
  have cm := copy_copyMem spoil w l hb hx
  obtain ⟨S, -, hfull⟩ := copy_sound (spoil := spoil) w l hb hx
  have sk := w.skel
  have sk' := Heap.raw_skel sk hx
  have hgr := raw_graph spoil s x sk hx
  have hfit : 0 < s.heap.size x → s.heap.leaf x = true ∨ ∃ v, Fits s.heap.toGraph s.mem x v := by
    intro hpos
    obtain ⟨b, o, hc⟩ := settled_calm w l hx hs
    exact .inr ⟨_, (hc x 0 .refl hpos).1, rfl⟩
  have hsz : ∀ n, n < s.heap.next → (s.heap.rawCopy x).toGraph.size n = s.heap.size n :=
    fun n hn => Heap.lift_old _ _ hn
  have hlf : ∀ n, n < s.heap.next → (s.heap.rawCopy x).toGraph.leaf n = s.heap.leaf n :=
    fun n hn => Heap.lift_old _ _ hn
  have hhas : ∀ n B i, n < s.heap.next → Has (s.heap.rawCopy x).toGraph (s.copy spoil x).1.mem n B i →
      Has s.heap.toGraph s.mem n B i := by
    rintro n B i hn ⟨v, h1, h2, h3, h4, h5⟩
    rw [hsz n hn] at h2
    have := cm.old hn (by
      by_cases hnx : n = x
      · subst hnx
        exact .inr (hfit (by omega))
      · exact .inl hnx)
    rw [this.1] at h1
    exact ⟨v, h1, h2, h3, h4, h5⟩
  have hnew : ∀ y B i, Anc s.heap.toGraph x y →
      Has (s.heap.rawCopy x).toGraph (s.copy spoil x).1.mem (s.heap.copyOf x y) B i → s.mem.next ≤ B := by
    rintro y B i hy ⟨v, h1, -, h3, -⟩
    rw [← h3]; exact cm.fresh y v hy h1
  have hold : ∀ n B i, n < s.heap.next → Has (s.heap.rawCopy x).toGraph (s.copy spoil x).1.mem n B i →
      B < s.mem.next := by
    intro n B i hn h
    obtain ⟨v, h1, -, h3, -⟩ := hhas n B i hn h
    rw [← h3]; exact hb n v h1
  have hborn : ∀ n v, (s.copy spoil x).1.mem.arr n = some v → n < (s.heap.rawCopy x).toGraph.next := by
    intro n v hv
    by_cases hn : NewOf s.heap x n
    · obtain ⟨y, hy, rfl⟩ := hn
      exact Heap.copyOf_lt sk hy
    · by_cases hnx : n = x
      · rw [hnx]; exact Nat.lt_of_lt_of_le hx (Nat.le_add_right _ _)
      · have h1 := cm.others n (fun y hy he => hn ⟨y, hy, he⟩) (.inl hnx)
        rw [h1.1] at hv
        exact Nat.lt_of_lt_of_le (t.born n v hv) (Nat.le_add_right _ _)
  have hbelow : ∀ y, Anc s.heap.toGraph x y → Settled s.heap y := by
    intro y hy
    by_cases hyx : y = x
    · rw [hyx]; exact hs
    · rcases t.kind y (lt_of_anc sk hx hy) with h | h
      · exact h
      · cases hy with
        | refl => exact absurd rfl hyx
        | step _ hp =>
          have := h.1
          rw [show s.heap.parent y = _ from hp] at this; cases this
  refine ⟨?_, ?_, ?_, ?_⟩
  · rw [hgr]
    refine ⟨S.lo, S.lf, ?_, S.bd⟩
    intro n y B i hl h1 h2
    obtain ⟨v, e1, -⟩ := id h1
    obtain ⟨u, e2, -⟩ := id h2
    have hn := Heap.raw_below sk (hborn n v e1)
    have hy := Heap.raw_below sk (hborn y u e2)
    rcases hn with hn | ⟨a, ha, rfl⟩
    · rcases hy with hy | ⟨b, hb', rfl⟩
      · rw [hlf y hy] at hl
        exact raw_anc_old sk hy (t.sound.sep n y B i hl (hhas n B i hn h1) (hhas y B i hy h2))
      · have := hold n B i hn h1
        have := hnew b B i hb' h2
        omega
    · rcases hy with hy | ⟨b, hb', rfl⟩
      · have := hold y B i hy h2
        have := hnew a B i ha h1
        omega
      · exact S.sep _ _ B i ⟨a, ha, rfl⟩ ⟨b, hb', rfl⟩ hl h1 h2
  · show ∀ n v, (s.copy spoil x).1.mem.arr n = some v → n < (s.copy spoil x).1.heap.toGraph.next
    rw [hgr]; exact hborn
  · intro n hn
    have hn : n < (s.copy spoil x).1.heap.toGraph.next := hn
    have el : (s.copy spoil x).1.heap.leaf = (s.heap.rawCopy x).toGraph.leaf := by rw [← hgr]
    have ep : (s.copy spoil x).1.heap.parent = (s.heap.rawCopy x).toGraph.parent := by rw [← hgr]
    rw [hgr] at hn
    rcases Heap.raw_below sk hn with hno | ⟨y, hy, rfl⟩
    · replace hn := hno
      clear hno
      rcases t.kind n hn with (h | h) | ⟨h1, h2, h3⟩
      · exact .inl (.inl (by rw [el, hlf n hn]; exact h))
      · exact .inl (.inr ((copy_done_old spoil w hx hn).mpr h))
      · refine .inr ⟨?_, ?_, ?_⟩
        · rw [ep]; exact (Heap.lift_old _ _ hn).trans h1
        · rw [(copy_heap spoil s x).1]
          obtain ⟨c, -⟩ := Heap.copy_copied w.skel hx
          obtain ⟨F, W, hB⟩ := Heap.beforeCopy_eq s.heap x
          rw [hB] at c
          rw [c.inited n hn]; exact h2
        · by_cases hnx : n = x
          · rw [hnx] at h2 h3 ⊢
            rcases hs with hs | hs
            · rw [(cm.old hx (.inr (.inl hs))).1]; exact h3
            · exact absurd hs.2 h2
          · rw [(cm.old hn (.inl hnx)).1]; exact h3
    · refine .inl ?_
      rcases hbelow y hy with h | h
      · exact .inl (by rw [el]; exact (Heap.raw_leaf_new sk hy).trans h)
      · cases hl : s.heap.leaf x with
        | true =>
          have : y = x := anc_leaf sk hl hy
          subst this
          exact .inl (by rw [el]; exact (Heap.raw_leaf_new sk hy).trans hl)
        | false => exact .inr (copy_done_new w hx hl hy h.1)
  · show ∀ r n, (s.copy spoil x).1.heap.toGraph.parent r = none → Done (s.copy spoil x).1.heap r →
      Anc (s.copy spoil x).1.heap.toGraph r n → (s.copy spoil x).1.heap.toGraph.leaf n = false →
      (n ≠ r ∨ (s.copy spoil x).1.heap.toGraph.kids n ≠ []) →
      ∃ v, Fits (s.copy spoil x).1.heap.toGraph (s.copy spoil x).1.mem n v
    rw [hgr]
    intro r n hr hd ha hl hk
    by_cases hro : r < s.heap.next
    · obtain ⟨hn, ha0⟩ := raw_anc_of_old sk hx hro ha
      have hpr : s.heap.parent r = none := (Heap.lift_old (x := x) _ _ hro).symm.trans hr
      have hkn : (s.heap.rawCopy x).toGraph.kids n = s.heap.kids n := Heap.lift_old _ _ hn
      rw [hkn] at hk
      rw [hlf n hn] at hl
      obtain ⟨v, h1, h2⟩ := t.full r n hpr ((copy_done_old spoil w hx hro).mp hd) ha0 hl hk
      have := cm.old hn (by
        by_cases hnx : n = x
        · subst hnx; exact .inr (.inr ⟨v, h1, h2⟩)
        · exact .inl hnx)
      exact ⟨v, this.1.trans h1, h2.trans (hsz n hn).symm⟩
    · have hlt : r < (s.heap.rawCopy x).toGraph.next := by
        rcases hk with h | h
        · obtain ⟨e, A, B, hk', -⟩ := Hier.Graph.Ins.child_above sk' ha (Ne.symm h)
          exact (sk'.alloc _ _ (sk'.parent_of hk')).2
        · by_cases hne : n = r
          · obtain ⟨c, hc⟩ := List.exists_mem_of_ne_nil _ h
            rw [← hne]
            exact (sk'.alloc _ _ ((sk'.mem_iff _ _).mp hc)).2
          · obtain ⟨e, A, B, hk', -⟩ := Hier.Graph.Ins.child_above sk' ha (Ne.symm hne)
            exact (sk'.alloc _ _ (sk'.parent_of hk')).2
      rcases Heap.raw_below sk hlt with h | ⟨y, hy, rfl⟩
      · exact absurd h hro
      have hyx : y = x := by
        by_contra hyx
        have hr : (s.heap.rawCopy x).parent (s.heap.copyOf x y) = none := hr
        rw [Heap.raw_parent_new sk hy, if_neg hyx] at hr
        cases hy with
        | refl => exact hyx rfl
        | step _ hp => rw [show s.heap.parent y = _ from hp] at hr; cases hr
      rw [hyx] at ha hk
      obtain ⟨a, ha', rfl⟩ := Heap.raw_anc_inv sk ha
      have hl : (s.heap.rawCopy x).leaf (s.heap.copyOf x a) = false := hl
      rw [Heap.raw_leaf_new sk ha'] at hl
      have hlx : s.heap.leaf x = false := by
        cases h : s.heap.leaf x with
        | false => rfl
        | true => rw [anc_leaf sk h ha', h] at hl; cases hl
      refine hfull hlx a ha' ?_
      rcases hk with h | h
      · exact .inl (fun e => h (by rw [e]))
      · right
        intro e
        apply h
        show (s.heap.rawCopy x).kids (s.heap.copyOf x a) = []
        rw [Heap.raw_kids_new sk ha', e]; rfl

end State

end Paramz.Memory

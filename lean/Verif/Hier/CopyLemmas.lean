import Verif.Hier.Copy
import Verif.Hier.Ops
import Verif.Hier.TraverseLemmas

/-!
# Copying keeps the state well formed
-/

set_option linter.unusedSectionVars false

namespace Paramz.Hier

open IndexOps (Arr Dict Iop lookup)
open Graph (Anc At Skel Sized Ins)

namespace Graph

variable {g : Graph}

theorem nodup_subtree (s : Skel g) (x : Id) : (g.subtree x).Nodup := by
  have := nodup_prunedF s (fun _ => false) g.fuel x
  rwa [prunedF_nomarks] at this

end Graph

theorem pick_some {L : List Id} (hn : L.Nodup) {n i : Nat} {y : Id} :
    pick L n i = some y ↔ y ∈ L ∧ i = n + L.idxOf y := by
  unfold pick
  constructor
  · intro h
    split at h
    · cases h
    · rename_i hi
      obtain ⟨hlt, he⟩ := List.getElem?_eq_some_iff.mp h
      refine ⟨List.mem_of_getElem? h, ?_⟩
      have := hn.idxOf_getElem _ hlt
      rw [he] at this
      omega
  · rintro ⟨hy, rfl⟩
    rw [if_neg (by omega)]
    have hlt := List.idxOf_lt_length_iff.mpr hy
    rw [show n + L.idxOf y - n = L.idxOf y by omega, List.getElem?_eq_getElem hlt,
      List.getElem_idxOf]

theorem pick_none {L : List Id} {n i : Nat} : pick L n i = none ↔ i < n ∨ n + L.length ≤ i := by
  unfold pick
  split
  · simp [*]
  · rw [List.getElem?_eq_none_iff]; omega

namespace Heap

variable {T : Type} [DecidableEq T]

section raw

variable {h : Heap T} {x : Id}

theorem idxOf_self (h : Heap T) (x : Id) : (h.toGraph.subtree x).idxOf x = 0 := by
  unfold Graph.subtree Graph.fuel
  rw [Graph.subtreeF]
  simp

theorem copyOf_self (h : Heap T) (x : Id) : h.copyOf x x = h.next := by
  rw [copyOf, idxOf_self]; rfl

theorem lift_new (s : Skel h.toGraph) {α : Type} (old new : Id → α) {y : Id}
    (hy : Anc h.toGraph x y) : h.lift x old new (h.copyOf x y) = new y := by
  unfold lift copyOf
  rw [(pick_some (n := h.next) (Graph.nodup_subtree s x)).mpr ⟨s.mem_subtree.mpr hy, rfl⟩]

theorem lift_old {α : Type} (old new : Id → α) {i : Id} (hi : i < h.next) :
    h.lift x old new i = old i := by
  unfold lift
  rw [pick_none.mpr (.inl hi)]

theorem copy_cases (s : Skel h.toGraph) (x i : Id) :
    (∃ y, Anc h.toGraph x y ∧ i = h.copyOf x y) ∨
    ((∀ y, Anc h.toGraph x y → i ≠ h.copyOf x y) ∧
      ∀ {α : Type} (old new : Id → α), h.lift x old new i = old i) := by
  cases hp : pick (h.toGraph.subtree x) h.next i with
  | some y =>
    obtain ⟨h1, h2⟩ := (pick_some (Graph.nodup_subtree s x)).mp hp
    exact .inl ⟨y, s.mem_subtree.mp h1, h2⟩
  | none =>
    refine .inr ⟨?_, ?_⟩
    · rintro y hy rfl
      unfold copyOf at hp
      rw [(pick_some (n := h.next) (Graph.nodup_subtree s x)).mpr ⟨s.mem_subtree.mpr hy, rfl⟩] at hp
      cases hp
    · intro α old new
      unfold lift
      rw [hp]

theorem copyOf_ge (h : Heap T) (x y : Id) : h.next ≤ h.copyOf x y := Nat.le_add_right _ _

theorem copyOf_lt (s : Skel h.toGraph) {y : Id} (hy : Anc h.toGraph x y) :
    h.copyOf x y < (h.rawCopy x).next :=
  Nat.add_lt_add_left (List.idxOf_lt_length_iff.mpr (s.mem_subtree.mpr hy)) _

theorem copyOf_inj (s : Skel h.toGraph) {y z : Id} (hy : Anc h.toGraph x y)
    (he : h.copyOf x y = h.copyOf x z) : y = z :=
  (List.idxOf_inj (s.mem_subtree.mpr hy)).mp (Nat.add_left_cancel he)

theorem raw_below (s : Skel h.toGraph) {i : Id} (hi : i < (h.rawCopy x).next) :
    i < h.next ∨ ∃ y, Anc h.toGraph x y ∧ i = h.copyOf x y := by
  by_cases h1 : i < h.next
  · exact .inl h1
  · right
    cases hp : pick (h.toGraph.subtree x) h.next i with
    | some y =>
      obtain ⟨h1, h2⟩ := (pick_some (Graph.nodup_subtree s x)).mp hp
      exact ⟨y, s.mem_subtree.mp h1, h2⟩
    | none =>
      rcases pick_none.mp hp with h2 | h2
      · exact absurd h2 h1
      · exact absurd hi (Nat.not_lt.mpr h2)

/-- Parents of copies. -/
theorem raw_parent_new (s : Skel h.toGraph) {y : Id} (hy : Anc h.toGraph x y) :
    (h.rawCopy x).parent (h.copyOf x y) =
      if y = x then none else (h.parent y).map (h.copyOf x) := lift_new s _ _ hy

theorem raw_kids_new (s : Skel h.toGraph) {y : Id} (hy : Anc h.toGraph x y) :
    (h.rawCopy x).kids (h.copyOf x y) = (h.kids y).map (h.copyOf x) := lift_new s _ _ hy

theorem raw_size_new (s : Skel h.toGraph) {y : Id} (hy : Anc h.toGraph x y) :
    (h.rawCopy x).size (h.copyOf x y) = h.size y := lift_new s _ _ hy

theorem raw_leaf_new (s : Skel h.toGraph) {y : Id} (hy : Anc h.toGraph x y) :
    (h.rawCopy x).leaf (h.copyOf x y) = h.leaf y := lift_new s _ _ hy

/-- Above a proper part of the tree there is its parent, also in the tree. -/
theorem anc_up {g : Graph} {x y : Id} (hy : Anc g x y) (hne : y ≠ x) :
    ∃ p, g.parent y = some p ∧ Anc g x p := by
  cases hy with
  | refl => exact absurd rfl hne
  | step h1 h2 => exact ⟨_, h2, h1⟩

theorem kid_ne {g : Graph} (s : Skel g) {x p c : Id} (hp : Anc g x p) (hc : g.parent c = some p) :
    c ≠ x := by
  rintro rfl
  exact s.not_anc_parent hc hp

theorem raw_child (s : Skel h.toGraph) {y c : Id} (hy : Anc h.toGraph x y)
    (hc : h.parent c = some y) : (h.rawCopy x).parent (h.copyOf x c) = some (h.copyOf x y) := by
  rw [raw_parent_new s (hy.trans (.of_parent hc)), if_neg (kid_ne s hy hc), hc]; rfl

theorem raw_skel (s : Skel h.toGraph) (hx : x < h.next) : Skel (h.rawCopy x).toGraph := by
  have hL : ∀ {y}, Anc h.toGraph x y → y < h.next := fun hy => s.desc_lt hy hx
  have hnx : (h.rawCopy x).next = h.next + (h.toGraph.subtree x).length := rfl
  constructor
  · intro c p hc
    have hc : (h.rawCopy x).parent c = some p := hc
    show c < (h.rawCopy x).next ∧ p < (h.rawCopy x).next
    rcases copy_cases s x c with ⟨y, hy, rfl⟩ | ⟨-, hl⟩
    · rw [raw_parent_new s hy] at hc
      by_cases hyx : y = x
      · rw [if_pos hyx] at hc; cases hc
      · obtain ⟨q, hq, ha⟩ := anc_up hy hyx
        rw [if_neg hyx, show h.parent y = some q from hq] at hc
        cases hc
        exact ⟨copyOf_lt s hy, copyOf_lt s ha⟩
    · have hc : h.parent c = some p := by rw [← hl h.parent]; exact hc
      have := s.alloc c p hc
      rw [hnx]
      exact ⟨Nat.lt_of_lt_of_le this.1 (Nat.le_add_right _ _),
        Nat.lt_of_lt_of_le this.2 (Nat.le_add_right _ _)⟩
  · intro c p
    show c ∈ (h.rawCopy x).kids p ↔ (h.rawCopy x).parent c = some p
    rcases copy_cases s x p with ⟨y, hy, rfl⟩ | ⟨hp, hl⟩
    · rw [raw_kids_new s hy, List.mem_map]
      constructor
      · rintro ⟨k, hk, rfl⟩
        exact raw_child s hy ((s.mem_iff _ _).mp hk)
      · intro hc
        rcases copy_cases s x c with ⟨z, hz, rfl⟩ | ⟨-, hl⟩
        · rw [raw_parent_new s hz] at hc
          by_cases hzx : z = x
          · rw [if_pos hzx] at hc; cases hc
          · obtain ⟨q, hq, ha⟩ := anc_up hz hzx
            rw [if_neg hzx, show h.parent z = some q from hq] at hc
            have := copyOf_inj s ha (Option.some.inj hc)
            subst this
            exact ⟨z, (s.mem_iff _ _).mpr hq, rfl⟩
        · have hc : h.parent c = some (h.copyOf x y) := by rw [← hl h.parent]; exact hc
          exact absurd (s.alloc _ _ hc).2 (Nat.not_lt.mpr (copyOf_ge h x y))
    · have e : (h.rawCopy x).kids p = h.kids p := hl _ _
      rw [e, s.mem_iff]
      constructor
      · intro hc
        have : (h.rawCopy x).parent c = h.parent c := lift_old _ _ (s.alloc _ _ hc).1
        rw [this]; exact hc
      · intro hc
        rcases copy_cases s x c with ⟨z, hz, rfl⟩ | ⟨-, hl⟩
        · exfalso
          rw [raw_parent_new s hz] at hc
          by_cases hzx : z = x
          · rw [if_pos hzx] at hc; cases hc
          · obtain ⟨q, hq, ha⟩ := anc_up hz hzx
            rw [if_neg hzx, show h.parent z = some q from hq] at hc
            exact hp q ha (Option.some.inj hc).symm
        · have : (h.rawCopy x).parent c = h.parent c := hl _ _
          rw [this] at hc; exact hc
  · intro p
    show ((h.rawCopy x).kids p).Nodup
    rcases copy_cases s x p with ⟨y, hy, rfl⟩ | ⟨-, hl⟩
    · rw [raw_kids_new s hy]
      refine List.Nodup.map_on ?_ (s.nodup y)
      intro a ha b _ he
      exact copyOf_inj s (hy.trans (.of_parent ((s.mem_iff _ _).mp ha))) he
    · have e : (h.rawCopy x).kids p = h.kids p := hl _ _
      rw [e]; exact s.nodup p
  · intro p i c hc
    have hc : ((h.rawCopy x).kids p)[i]? = some c := hc
    show (h.rawCopy x).pidx c = i
    rcases copy_cases s x p with ⟨y, hy, rfl⟩ | ⟨-, hl⟩
    · rw [raw_kids_new s hy, List.getElem?_map] at hc
      obtain ⟨k, hk, rfl⟩ := Option.map_eq_some_iff.mp hc
      have hpk := (s.mem_iff _ _).mp (List.mem_of_getElem? hk)
      have : (h.rawCopy x).pidx (h.copyOf x k) = h.pidx k :=
        lift_new s _ _ (hy.trans (.of_parent hpk))
      rw [this]; exact s.pidx y i k hk
    · have e : (h.rawCopy x).kids p = h.kids p := hl _ _
      rw [e] at hc
      have hpk := (s.mem_iff _ _).mp (List.mem_of_getElem? hc)
      have : (h.rawCopy x).pidx c = h.pidx c := lift_old _ _ (s.alloc _ _ hpk).1
      rw [this]; exact s.pidx p i c hc
  · intro p hlf
    have hlf : (h.rawCopy x).leaf p = true := hlf
    show (h.rawCopy x).kids p = []
    rcases copy_cases s x p with ⟨y, hy, rfl⟩ | ⟨-, hl⟩
    · rw [raw_kids_new s hy]
      rw [raw_leaf_new s hy] at hlf
      rw [show h.kids y = [] from s.leaf y hlf]; rfl
    · have e : (h.rawCopy x).kids p = h.kids p := hl _ _
      have e2 : (h.rawCopy x).leaf p = h.leaf p := hl _ _
      rw [e]; exact s.leaf p (by rw [← e2]; exact hlf)
  · obtain ⟨d, hd⟩ := s.acyclic
    refine ⟨h.lift x d d, ?_⟩
    intro c p hc
    have hc : (h.rawCopy x).parent c = some p := hc
    rcases copy_cases s x c with ⟨y, hy, rfl⟩ | ⟨-, hl⟩
    · rw [raw_parent_new s hy] at hc
      by_cases hyx : y = x
      · rw [if_pos hyx] at hc; cases hc
      · obtain ⟨q, hq, ha⟩ := anc_up hy hyx
        rw [if_neg hyx, show h.parent y = some q from hq] at hc
        cases hc
        rw [lift_new s _ _ hy, lift_new s _ _ ha]
        exact hd _ _ hq
    · have hc : h.parent c = some p := by rw [← hl h.parent]; exact hc
      rw [hl, lift_old _ _ (s.alloc _ _ hc).2]
      exact hd _ _ hc

theorem raw_sizeSum (s : Skel h.toGraph) {y : Id} (hy : Anc h.toGraph x y) {A : List Id}
    (hA : ∀ c ∈ A, c ∈ h.kids y) :
    (h.rawCopy x).toGraph.sizeSum (A.map (h.copyOf x)) = h.toGraph.sizeSum A := by
  unfold Graph.sizeSum
  rw [List.map_map]
  congr 1
  apply List.map_congr_left
  intro c hc
  exact raw_size_new s (hy.trans (.of_parent ((s.mem_iff _ _).mp (hA c hc))))

theorem raw_sized (s : Skel h.toGraph) (z : Sized h.toGraph) :
    Sized (h.rawCopy x).toGraph := by
  intro p hlf
  have hlf : (h.rawCopy x).leaf p = false := hlf
  show (h.rawCopy x).size p = (h.rawCopy x).toGraph.sizeSum ((h.rawCopy x).kids p)
  rcases copy_cases s x p with ⟨y, hy, rfl⟩ | ⟨-, hl⟩
  · rw [raw_leaf_new s hy] at hlf
    rw [raw_size_new s hy, raw_kids_new s hy, raw_sizeSum s hy (fun c hc => hc)]
    exact z y hlf
  · have e : (h.rawCopy x).kids p = h.kids p := hl _ _
    have e2 : (h.rawCopy x).leaf p = h.leaf p := hl _ _
    have e3 : (h.rawCopy x).size p = h.size p := hl _ _
    rw [e2] at hlf
    rw [e, e3, show h.size p = _ from z p hlf]
    unfold Graph.sizeSum
    congr 1
    apply List.map_congr_left
    intro c hc
    have := (s.alloc _ _ ((s.mem_iff _ _).mp hc)).1
    exact (lift_old _ _ this).symm

/-- Positions inside the copy are those inside the original. -/
theorem raw_at (s : Skel h.toGraph) {y n : Nat} (ha : At h.toGraph x y n) :
    At (h.rawCopy x).toGraph (h.copyOf x x) (h.copyOf x y) n := by
  induction ha with
  | refl => exact .refl
  | @step p c n A B h1 hk ih =>
    have hp := h1.anc s
    have hA := raw_sizeSum s hp (A := A) (fun c hc => by
      show c ∈ h.toGraph.kids p
      rw [hk]; exact List.mem_append_left _ hc)
    rw [← hA]
    refine .step ih (B := B.map (h.copyOf x)) ?_
    show (h.rawCopy x).kids _ = _
    rw [raw_kids_new s hp, show h.kids p = _ from hk]
    simp

theorem raw_anc (s : Skel h.toGraph) {y : Id} (ha : Anc h.toGraph x y) :
    Anc (h.rawCopy x).toGraph (h.copyOf x x) (h.copyOf x y) := by
  induction ha with
  | refl => exact .refl
  | step h1 h2 ih => exact .step ih (raw_child s h1 h2)

/-- Below the copy there are only copies. -/
theorem raw_anc_inv (s : Skel h.toGraph) {i : Id}
    (ha : Anc (h.rawCopy x).toGraph (h.copyOf x x) i) :
    ∃ y, Anc h.toGraph x y ∧ i = h.copyOf x y := by
  induction ha with
  | refl => exact ⟨x, .refl, rfl⟩
  | @step p c h1 h2 ih =>
    obtain ⟨y, hy, rfl⟩ := ih
    have h2 : (h.rawCopy x).parent c = some (h.copyOf x y) := h2
    rcases copy_cases s x c with ⟨z, hz, rfl⟩ | ⟨-, hl⟩
    · exact ⟨z, hz, rfl⟩
    · have hc : h.parent c = some (h.copyOf x y) := by rw [← hl h.parent]; exact h2
      exact absurd (s.alloc _ _ hc).2 (Nat.not_lt.mpr (copyOf_ge h x y))

theorem raw_at_inv (s : Skel h.toGraph) (hx : x < h.next) {i n : Nat}
    (ha : At (h.rawCopy x).toGraph (h.copyOf x x) i n) :
    ∃ y, At h.toGraph x y n ∧ i = h.copyOf x y := by
  have s' := raw_skel s hx
  obtain ⟨y, hy, rfl⟩ := raw_anc_inv s (ha.anc s')
  obtain ⟨m, hm⟩ := s.exists_at hy
  have := s'.at_unique ha (raw_at s hm)
  subst this
  exact ⟨y, hm, rfl⟩

/-- Below an old object there are only old objects, where they were. -/
theorem raw_at_old (s : Skel h.toGraph) {r i n : Nat} (hr : r < h.next)
    (ha : At (h.rawCopy x).toGraph r i n) : i < h.next ∧ At h.toGraph r i n := by
  induction ha with
  | refl => exact ⟨hr, .refl⟩
  | @step p c n A B h1 hk ih =>
    obtain ⟨hp, ih⟩ := ih
    have hk : (h.rawCopy x).kids p = A ++ c :: B := hk
    have e : (h.rawCopy x).kids p = h.kids p := lift_old _ _ hp
    rw [e] at hk
    have hlt : ∀ c ∈ h.kids p, c < h.next := fun c hc => (s.alloc _ _ ((s.mem_iff _ _).mp hc)).1
    refine ⟨hlt c (by rw [hk]; simp), ?_⟩
    have hA : (h.rawCopy x).toGraph.sizeSum A = h.toGraph.sizeSum A := by
      unfold Graph.sizeSum
      congr 1
      apply List.map_congr_left
      intro a ha
      exact lift_old _ _ (hlt a (by rw [hk]; exact List.mem_append_left _ ha))
    rw [hA]
    exact .step ih hk

end raw

/-! ### `__setstate__` -/

/-- What setting the states of `y` and everything below it leaves as it was; the objects of that tree
have dictionaries of their own beforehand. -/
structure Settled (h h' : Heap T) (y : Id) : Prop where
  graph : h'.toGraph = h.toGraph
  nextDict : h'.nextDict = h.nextDict
  inInit : h'.inInit = h.inInit
  visited : h'.visited = h.visited
  iop : ∀ i, ¬ (Anc h.toGraph y i ∧ i ≠ y) → h'.iop i = h.iop i
  fixes : ∀ i, ¬ Anc h.toGraph y i → h'.fixes i = h.fixes i
  inited : ∀ i, ¬ Anc h.toGraph y i → h'.inited i = h.inited i
  dicts : ∀ d, (∀ i, Anc h.toGraph y i → d ≠ (h.iop i).1) → h'.dicts d = h.dicts d
  own : ∀ t, lookup (h'.dicts (h.iop y).1) t = lookup (h.dicts (h.iop y).1) t
  wf : IndexOps.WF (h.dicts (h.iop y).1) → IndexOps.WF (h'.dicts (h.iop y).1)

theorem reconnect_settled {h : Heap T} (s : Skel h.toGraph) {y : Id} (hb : (h.iop y).2 = .base) :
    Settled h (h.reconnect y) y := by
  obtain ⟨D, F, I, J, hD, hDw, hF, -, hI, -, hJ, -, he⟩ := reconnect_eq s hb
  have he : h.reconnect y = _ := he
  rw [he]
  refine ⟨rfl, rfl, rfl, rfl, hI, hF, hJ, ?_, ?_, ?_⟩
  · intro d hd
    exact upd_ne _ _ (hd y .refl)
  · intro t
    show lookup (upd h.dicts (h.iop y).1 D (h.iop y).1) t = _
    rw [upd_same]; exact hD t
  · intro hw
    show IndexOps.WF (upd h.dicts (h.iop y).1 D (h.iop y).1)
    rw [upd_same]; exact hDw hw

/-- The objects of the tree of `y` have dictionaries of their own, different from all of those of `E`. -/
def Apart (h : Heap T) (y : Id) : Prop :=
  (∀ i, Anc h.toGraph y i → (h.iop i).2 = .base) ∧
  ∀ i j, Anc h.toGraph y i → Anc h.toGraph y j → (h.iop i).1 = (h.iop j).1 → i = j

theorem setstate_fold {n : Nat}
    (ih : ∀ (h : Heap T) (y : Id), Skel h.toGraph → Apart h y → Settled h (h.setstateF n y) y)
    {g : Heap T} (s : Skel g.toGraph) {y : Id} (hap : Apart g y) :
    ∀ (L : List Id) (h : Heap T), (∀ c ∈ L, c ∈ g.kids y) → L.Nodup →
      h.toGraph = g.toGraph → h.nextDict = g.nextDict → h.inInit = g.inInit →
      h.visited = g.visited →
      (∀ i, ¬ (Anc g.toGraph y i ∧ i ≠ y) → h.iop i = g.iop i) →
      (∀ c ∈ L, ∀ i, Anc g.toGraph c i → h.iop i = g.iop i) →
      (∀ i, ¬ Anc g.toGraph y i → h.fixes i = g.fixes i) →
      (∀ i, ¬ Anc g.toGraph y i → h.inited i = g.inited i) →
      (∀ d, (∀ i, Anc g.toGraph y i → i ≠ y → d ≠ (g.iop i).1) → h.dicts d = g.dicts d) →
      let h' := L.foldl (fun h c => setstateF n h c) h
      h'.toGraph = g.toGraph ∧ h'.nextDict = g.nextDict ∧ h'.inInit = g.inInit ∧
      h'.visited = g.visited ∧
      (∀ i, ¬ (Anc g.toGraph y i ∧ i ≠ y) → h'.iop i = g.iop i) ∧
      (∀ i, ¬ Anc g.toGraph y i → h'.fixes i = g.fixes i) ∧
      (∀ i, ¬ Anc g.toGraph y i → h'.inited i = g.inited i) ∧
      (∀ d, (∀ i, Anc g.toGraph y i → i ≠ y → d ≠ (g.iop i).1) → h'.dicts d = g.dicts d)
  | [], h, _, _, e1, e2, e3, e4, e5, _, e7, e8, e9 => ⟨e1, e2, e3, e4, e5, e7, e8, e9⟩
  | c :: L, h, hL, hn, e1, e2, e3, e4, e5, e6, e7, e8, e9 => by
    rw [List.nodup_cons] at hn
    have hc := (s.mem_iff _ _).mp (hL c (by simp))
    have hcy : Anc g.toGraph y c := .of_parent hc
    have hne : ∀ i, Anc g.toGraph c i → Anc g.toGraph y i ∧ i ≠ y := by
      intro i hi
      refine ⟨hcy.trans hi, ?_⟩
      rintro rfl
      exact s.not_anc_parent hc hi
    have hs : Settled h (h.setstateF n c) c := by
      apply ih h c (by rw [e1]; exact s)
      constructor
      · intro i hi
        rw [e1] at hi
        rw [e6 c (by simp) i hi]
        exact hap.1 i (hne i hi).1
      · intro i j hi hj he
        rw [e1] at hi hj
        rw [e6 c (by simp) i hi, e6 c (by simp) j hj] at he
        exact hap.2 i j (hne i hi).1 (hne j hj).1 he
    rw [List.foldl_cons]
    refine setstate_fold ih s hap L _ (fun d hd => hL d (by simp [hd])) hn.2 (hs.graph.trans e1)
      (hs.nextDict.trans e2) (hs.inInit.trans e3) (hs.visited.trans e4) ?_ ?_ ?_ ?_ ?_
    · intro i hi
      rw [hs.iop i (by rw [e1]; exact fun hh => hi (hne i hh.1)), e5 i hi]
    · intro d hd i hi
      rw [hs.iop i ?_, e6 d (by simp [hd]) i hi]
      rw [e1]
      rintro ⟨hh, -⟩
      have hdp := (s.mem_iff _ _).mp (hL d (by simp [hd]))
      have hcd : c ≠ d := by rintro rfl; exact hn.1 hd
      rcases Graph.Anc.total hh hi with h1 | h1
      · rcases (Graph.anc_iff_of_parent hdp).mp h1 with h2 | h2
        · exact hcd h2
        · exact s.not_anc_parent hc h2
      · rcases (Graph.anc_iff_of_parent hc).mp h1 with h2 | h2
        · exact hcd h2.symm
        · exact s.not_anc_parent hdp h2
    · intro i hi
      rw [hs.fixes i (by rw [e1]; exact fun hh => hi (hne i hh).1), e7 i hi]
    · intro i hi
      rw [hs.inited i (by rw [e1]; exact fun hh => hi (hne i hh).1), e8 i hi]
    · intro d hd
      rw [hs.dicts d ?_, e9 d hd]
      intro i hi
      rw [e1] at hi
      rw [e6 c (by simp) i hi]
      exact hd i (hne i hi).1 (hne i hi).2

theorem setstateF_settled : ∀ (n : Nat) (h : Heap T) (y : Id), Skel h.toGraph → Apart h y →
    Settled h (h.setstateF n y) y
  | 0, h, y, _, _ => ⟨rfl, rfl, rfl, rfl, fun _ _ => rfl, fun _ _ => rfl, fun _ _ => rfl,
      fun _ _ => rfl, fun _ => rfl, fun h => h⟩
  | n + 1, h, y, s, hap => by
    obtain ⟨e1, e2, e3, e4, e5, e7, e8, e9⟩ := setstate_fold (setstateF_settled n) s hap (h.kids y) h
      (fun _ hc => hc) (s.nodup y) rfl rfl rfl rfl (fun _ _ => rfl) (fun _ _ _ _ => rfl)
      (fun _ _ => rfl) (fun _ _ => rfl) (fun _ _ => rfl)
    unfold setstateF
    set h1 := (h.kids y).foldl (fun h c => setstateF n h c) h
    have hown : h1.dicts (h.iop y).1 = h.dicts (h.iop y).1 :=
      e9 _ (fun i hi hne he => hne (hap.2 i y hi .refl he.symm))
    have hs1 : Settled h h1 y := by
      refine ⟨e1, e2, e3, e4, e5, e7, e8, fun d hd => e9 d (fun i hi _ => hd i hi), ?_, ?_⟩
      · intro t; rw [hown]
      · intro hw; rw [hown]; exact hw
    have hiy : h1.iop y = h.iop y := e5 y (fun hh => hh.2 rfl)
    show Settled h (if h.leaf y then h1 else h1.reconnect y) y
    split
    · exact hs1
    · have s1 : Skel h1.toGraph := by rw [e1]; exact s
      have hs2 := reconnect_settled s1 (y := y) (by rw [hiy]; exact hap.1 y .refl)
      refine ⟨hs2.graph.trans e1, hs2.nextDict.trans e2, hs2.inInit.trans e3, hs2.visited.trans e4,
        ?_, ?_, ?_, ?_, ?_, ?_⟩
      · intro i hi
        rw [hs2.iop i (by rw [e1]; exact hi), e5 i hi]
      · intro i hi
        rw [hs2.fixes i (by rw [e1]; exact hi), e7 i hi]
      · intro i hi
        rw [hs2.inited i (by rw [e1]; exact hi), e8 i hi]
      · obtain ⟨D, F, I, J, -, -, -, -, -, -, -, -, he⟩ :=
          reconnect_eq s1 (r := y) (by rw [hiy]; exact hap.1 y .refl)
        intro d hd
        show (h1.reconnect y).dicts d = h.dicts d
        have he : h1.reconnect y = _ := he
        rw [he]
        show upd h1.dicts (h1.iop y).1 D d = _
        rw [hiy, upd_ne _ _ (hd y .refl)]
        exact e9 d (fun i hi _ => hd i hi)
      · intro t
        have := hs2.own t
        rw [hiy] at this
        rw [this, hown]
      · intro hw
        have := hs2.wf
        rw [hiy, hown] at this
        exact this hw

/-! ### The result of `copy` -/

/-- What a copy of `x` adds to a state: new objects in the shape of the old ones, all of which are views
on a new dictionary that holds what `x` saw of its own; nothing else changes except the marks and
masks. -/
structure Copied (h h' : Heap T) (x : Id) : Prop where
  graph : h'.toGraph = (h.rawCopy x).toGraph
  nextDict : h'.nextDict = h.nextDict + (h.toGraph.subtree x).length
  iop : ∀ i, i < h.next → h'.iop i = h.iop i
  fixes : ∀ i, i < h.next → h'.fixes i = h.fixes i
  inited : ∀ i, i < h.next → h'.inited i = h.inited i
  inInit : ∀ i, i < h.next → h'.inInit i = h.inInit i
  dicts : ∀ d, d < h.nextDict → h'.dicts d = h.dicts d
  root : h'.iop (h.copyOf x x) = (h.nextDict, .base)
  own : ∀ t, lookup (h'.dicts h.nextDict) t = lookup ((h.iop x).2.copy (h.dicts (h.iop x).1)) t
  wf : IndexOps.WF (h'.dicts h.nextDict)
  view : ∀ y n, At h.toGraph x y n → y ≠ x →
    h'.iop (h.copyOf x y) = (h.nextDict, .view .base n (h.size y))
  mask : h.leaf x = false → h'.fixes (h.copyOf x x) =
    freshMask (h.size x) (lookup (h'.dicts h.nextDict) .fixed)
  new : h.leaf x = false → ∀ y, Anc h.toGraph x y → h'.inited (h.copyOf x y) = some true
  leafNone : h.leaf x = true → h'.fixes (h.copyOf x x) = none
  inInitNew : ∀ y, Anc h.toGraph x y → h'.inInit (h.copyOf x y) = h.inInit y

theorem raw_iop_new {h : Heap T} {x y : Id} (s : Skel h.toGraph) (hy : Anc h.toGraph x y) :
    (h.rawCopy x).iop (h.copyOf x y) = (h.nextDict + (h.toGraph.subtree x).idxOf y, .base) :=
  lift_new s _ _ hy

theorem raw_apart {h : Heap T} {x : Id} (s : Skel h.toGraph) :
    Apart (h.rawCopy x) (h.copyOf x x) := by
  constructor
  · intro i hi
    obtain ⟨y, hy, rfl⟩ := raw_anc_inv s hi
    rw [raw_iop_new s hy]
  · intro i j hi hj he
    obtain ⟨y, hy, rfl⟩ := raw_anc_inv s hi
    obtain ⟨z, hz, rfl⟩ := raw_anc_inv s hj
    rw [raw_iop_new s hy, raw_iop_new s hz] at he
    rw [(List.idxOf_inj (s.mem_subtree.mpr hy)).mp (Nat.add_left_cancel he)]

theorem raw_dict_self (h : Heap T) (x : Id) :
    (h.rawCopy x).dicts h.nextDict = (h.iop x).2.copy (h.dicts (h.iop x).1) := by
  have : pick (h.toGraph.subtree x) h.nextDict h.nextDict = some x := by
    unfold pick
    rw [if_neg (Nat.lt_irrefl _), Nat.sub_self]
    unfold Graph.subtree Graph.fuel
    rw [Graph.subtreeF]
    rfl
  show (match pick (h.toGraph.subtree x) h.nextDict h.nextDict with
    | none => h.dicts h.nextDict
    | some y => (h.iop y).2.copy (h.dicts (h.iop y).1)) = _
  rw [this]

theorem raw_dict_old {h : Heap T} {x : Id} {d : Nat} (hd : d < h.nextDict) :
    (h.rawCopy x).dicts d = h.dicts d := by
  show (match pick (h.toGraph.subtree x) h.nextDict d with
    | none => h.dicts d
    | some y => (h.iop y).2.copy (h.dicts (h.iop y).1)) = _
  rw [pick_none.mpr (.inl hd)]

/-- Everything after the new objects are made, of which the last step is `reconnect` if `x` is a
`Parameterized`. -/
theorem copied_of_settled {h H : Heap T} {x : Id} (s : Skel h.toGraph) (hx : x < h.next)
    (hs : Settled (h.rawCopy x) H (h.copyOf x x)) (hl : h.leaf x = false) :
    Copied h (H.reconnect (h.copyOf x x)) x := by
  have sR := raw_skel s hx
  have hroot : (h.rawCopy x).iop (h.copyOf x x) = (h.nextDict, .base) := by
    rw [raw_iop_new s .refl, idxOf_self]; rfl
  have hiH : H.iop (h.copyOf x x) = (h.nextDict, .base) := by
    rw [hs.iop _ (fun hh => hh.2 rfl), hroot]
  have sH : Skel H.toGraph := by rw [hs.graph]; exact sR
  obtain ⟨D, F, I, J, hD, hDw, hF, hFr, hI, hIv, hJ, hJv, he⟩ :=
    reconnect_eq sH (r := h.copyOf x x) (by rw [hiH])
  have he : H.reconnect (h.copyOf x x) = _ := he
  have hown := hs.own
  have hwf := hs.wf
  rw [hroot] at hown hwf
  simp only at hown hwf
  rw [raw_dict_self] at hown hwf
  rw [hiH] at hD hDw hFr hIv
  simp only at hD hDw hFr hIv
  rw [hs.graph] at hF hI hIv hJ hJv
  have hno : ∀ i, i < h.next → ¬ Anc (h.rawCopy x).toGraph (h.copyOf x x) i := by
    intro i hi ha
    obtain ⟨y, -, rfl⟩ := raw_anc_inv s ha
    exact absurd hi (Nat.not_lt.mpr (copyOf_ge h x y))
  have hsz : ∀ y, Anc h.toGraph x y → H.size (h.copyOf x y) = h.size y := by
    intro y hy
    rw [show H.size = (h.rawCopy x).size by rw [hs.graph], raw_size_new s hy]
  have hnd : ∀ t, lookup D t = lookup ((h.iop x).2.copy (h.dicts (h.iop x).1)) t :=
    fun t => (hD t).trans (hown t)
  have hdd : (H.reconnect (h.copyOf x x)).dicts h.nextDict = D := by
    rw [he, hiH]; exact upd_same _ _ _
  constructor
  · rw [he]; exact hs.graph
  · rw [he]; exact hs.nextDict
  · intro i hi
    rw [he]
    show I i = _
    rw [hI i (fun hh => hno i hi hh.1), hs.iop i (fun hh => hno i hi hh.1)]
    exact lift_old _ _ hi
  · intro i hi
    rw [he]
    show F i = _
    rw [hF i (hno i hi), hs.fixes i (hno i hi)]
    exact lift_old _ _ hi
  · intro i hi
    rw [he]
    show J i = _
    rw [hJ i (hno i hi), hs.inited i (hno i hi)]
    exact lift_old _ _ hi
  · intro i hi
    rw [he]
    show H.inInit i = _
    rw [hs.inInit]
    exact lift_old _ _ hi
  · intro d hd
    rw [he]
    show upd H.dicts (H.iop (h.copyOf x x)).1 D d = _
    rw [hiH, upd_ne _ _ (show d ≠ h.nextDict by omega), hs.dicts d ?_, raw_dict_old hd]
    intro i hi
    obtain ⟨y, hy, rfl⟩ := raw_anc_inv s hi
    rw [raw_iop_new s hy]
    show d ≠ h.nextDict + _
    omega
  · rw [he]
    show I _ = _
    rw [hI _ (fun hh => hh.2 rfl), hiH]
  · intro t
    rw [hdd]; exact hnd t
  · rw [hdd]; exact hDw (hwf (copy_wf _ _))
  · intro y n ha hne
    rw [he]
    show I _ = _
    have hy := ha.anc s
    have hne' : h.copyOf x y ≠ h.copyOf x x := fun e => hne (copyOf_inj s hy e)
    rw [hIv _ (raw_anc s hy) hne', raw_size_new s hy, sR.offsetFor_eq (raw_at s ha) hne']
  · intro _
    rw [hdd]
    rw [he]
    show F _ = _
    rw [hFr, hsz x .refl, hD]
  · intro _ y hy
    rw [he]
    exact hJv _ (raw_anc s hy)
  · intro hl'
    rw [hl] at hl'; cases hl'
  · intro y hy
    rw [he]
    show H.inInit _ = _
    rw [hs.inInit]
    exact lift_new s _ _ hy

theorem subtree_leaf {h : Heap T} {x : Id} (s : Skel h.toGraph) (hl : h.leaf x = true) {y : Id}
    (hy : Anc h.toGraph x y) : y = x := by
  induction hy with
  | refl => rfl
  | step h1 h2 ih =>
    subst ih
    have := s.kids_not_leaf h2
    rw [show h.toGraph.leaf _ = true from hl] at this
    cases this

theorem copied_of_leaf {h H : Heap T} {x : Id} (s : Skel h.toGraph)
    (hs : H = h.rawCopy x) (hl : h.leaf x = true) : Copied h H x := by
  subst hs
  have hroot : (h.rawCopy x).iop (h.copyOf x x) = (h.nextDict, .base) := by
    rw [raw_iop_new s .refl, idxOf_self]; rfl
  refine ⟨rfl, rfl, fun i hi => lift_old _ _ hi, fun i hi => lift_old _ _ hi,
    fun i hi => lift_old _ _ hi, fun i hi => lift_old _ _ hi, fun d hd => raw_dict_old hd, hroot,
    ?_, ?_, ?_, ?_, ?_, ?_, fun y hy => lift_new s _ _ hy⟩
  · intro t; rw [raw_dict_self]
  · rw [raw_dict_self]; exact copy_wf _ _
  · intro y n ha hne
    exact absurd (subtree_leaf s hl (ha.anc s)) hne
  · intro h'; rw [hl] at h'; cases h'
  · intro h'; rw [hl] at h'; cases h'
  · intro _; exact lift_new s _ _ .refl

theorem setstateF_leaf {h : Heap T} {x : Id} (hl : h.leaf x = true) (hk : h.kids x = []) (n : Nat) :
    h.setstateF n x = h := by
  cases n with
  | zero => rfl
  | succ n => simp [setstateF, hl, hk]

/-- The state the new objects are made from: the marks of the search, and the mask read. -/
def beforeCopy (h : Heap T) (x : Id) : Heap T :=
  let h0 := if h.leaf x then h else h.readOptimizerArray x
  { h0 with visited := (h0.copySearch x).marks }

theorem readOptimizerArray_graph (h : Heap T) (x : Id) :
    (h.readOptimizerArray x).toGraph = h.toGraph := by
  unfold readOptimizerArray; split <;> rfl

theorem beforeCopy_graph (h : Heap T) (x : Id) : (h.beforeCopy x).toGraph = h.toGraph := by
  unfold beforeCopy
  split
  · rfl
  · exact readOptimizerArray_graph h x

theorem copyOf_graph {h h' : Heap T} (hg : h'.toGraph = h.toGraph) (x y : Id) :
    h'.copyOf x y = h.copyOf x y := by
  unfold copyOf
  rw [hg]

theorem copy_copied {h : Heap T} {x : Id} (s : Skel h.toGraph) (hx : x < h.next) :
    Copied (h.beforeCopy x) (h.copy x).1 x ∧ (h.copy x).2 = h.next := by
  have hg := beforeCopy_graph h x
  have sB : Skel (h.beforeCopy x).toGraph := by rw [hg]; exact s
  have hxB : x < (h.beforeCopy x).next := by rw [show (h.beforeCopy x).next = h.next by rw [hg]]; exact hx
  have hlB : (h.beforeCopy x).leaf x = h.leaf x := by
    rw [show (h.beforeCopy x).leaf = h.leaf by rw [hg]]
  unfold copy
  cases hl : h.leaf x with
  | true =>
    rw [if_pos rfl]
    refine ⟨?_, copyOf_self h x⟩
    rw [hl] at hlB
    apply copied_of_leaf sB ?_ hlB
    have hb : h.beforeCopy x = { h with visited := (h.copySearch x).marks } := by
      unfold beforeCopy; rw [if_pos hl]
    rw [hb] at sB hlB ⊢
    show (rawCopy _ x).setstateF _ _ = _
    apply setstateF_leaf
    · rw [raw_leaf_new sB .refl]; exact hlB
    · rw [raw_kids_new sB .refl, show Graph.kids _ x = [] from sB.leaf x hlB]; rfl
  | false =>
    rw [if_neg (by simp)]
    refine ⟨?_, copyOf_self h x⟩
    rw [hl] at hlB
    have hb : h.beforeCopy x = { h.readOptimizerArray x with
        visited := ((h.readOptimizerArray x).copySearch x).marks } := by
      unfold beforeCopy; rw [if_neg (by rw [hl]; simp)]
    rw [← copyOf_graph hg x x]
    apply copied_of_settled sB hxB ?_ hlB
    show Settled _ (copyBody _ x) _
    unfold copyBody
    simp only
    rw [← hb]
    exact setstateF_settled _ _ _ (raw_skel sB hxB) (raw_apart sB)

/-! ### Well formed -/

theorem WF.copied {h h' : Heap T} (w : WF h) {x : Id} (hx : x < h.next) (c : Copied h h' x) :
    WF h' := by
  have s := w.skel
  have sR := raw_skel s hx
  have hparR : ∀ i, h'.parent i = (h.rawCopy x).parent i := fun i => by
    rw [show h'.parent = (h.rawCopy x).parent by rw [c.graph]]
  have hnext : h'.next = (h.rawCopy x).next := by rw [c.graph]
  have hold : ∀ i, i < h.next → h'.parent i = h.parent i := fun i hi => by
    rw [hparR]; exact lift_old _ _ hi
  have holdsz : ∀ i, i < h.next → h'.size i = h.size i := fun i hi => by
    rw [show h'.size = (h.rawCopy x).size by rw [c.graph]]; exact lift_old _ _ hi
  have holdlf : ∀ i, i < h.next → h'.leaf i = h.leaf i := fun i hi => by
    rw [show h'.leaf = (h.rawCopy x).leaf by rw [c.graph]]; exact lift_old _ _ hi
  have hnewsz : h'.size (h.copyOf x x) = h.size x := by
    rw [show h'.size = (h.rawCopy x).size by rw [c.graph]]; exact raw_size_new s .refl
  have hnewlf : h'.leaf (h.copyOf x x) = h.leaf x := by
    rw [show h'.leaf = (h.rawCopy x).leaf by rw [c.graph]]; exact raw_leaf_new s .refl
  have hcases : ∀ r, r < h'.next → h'.parent r = none →
      (r < h.next ∧ h.parent r = none) ∨ r = h.copyOf x x := by
    intro r hr hp
    rw [hnext] at hr
    rcases raw_below s hr with h1 | ⟨y, hy, rfl⟩
    · exact .inl ⟨h1, by rw [← hold r h1]; exact hp⟩
    · right
      rw [hparR, raw_parent_new s hy] at hp
      by_cases hyx : y = x
      · rw [hyx]
      · obtain ⟨q, hq, -⟩ := anc_up hy hyx
        rw [if_neg hyx, show h.parent y = some q from hq] at hp
        cases hp
  have hdict : ∀ r, r < h.next → h.parent r = none → h'.dicts (h'.iop r).1 = h.dicts (h.iop r).1 := by
    intro r hr hp
    rw [c.iop r hr]
    exact c.dicts _ (w.root r hr hp).2
  have hLpos : 0 < (h.toGraph.subtree x).length :=
    List.length_pos_of_mem (s.mem_subtree.mpr .refl)
  obtain ⟨r0, hr0, ha0⟩ := s.exists_root x
  have hr0lt := s.anc_lt ha0 hx
  obtain ⟨n0, hn0⟩ := s.exists_at ha0
  have hdx : IndexOps.WF (h.dicts (h.iop x).1) := by
    by_cases hxr : x = r0
    · subst hxr; exact w.dict x hr0lt hr0
    · rw [w.view r0 x n0 hr0lt hr0 hn0 hxr]; exact w.dict r0 hr0lt hr0
  have hmem : ∀ t i, i ∈ lookup (h'.dicts h.nextDict) t ↔ i ∈ h.constraints x t := by
    intro t i
    rw [c.own t]
    exact mem_copy _ hdx t i
  constructor
  · rw [c.graph]; exact sR
  · rw [c.graph]; exact raw_sized s w.sized
  · intro r hr hp
    rcases hcases r hr hp with ⟨h1, h2⟩ | rfl
    · rw [c.iop r h1, c.nextDict]
      have := w.root r h1 h2
      exact ⟨this.1, by omega⟩
    · rw [c.root, c.nextDict]
      exact ⟨rfl, by show h.nextDict < _; omega⟩
  · intro r r' hr hr' hp hp' he
    rcases hcases r hr hp with ⟨h1, h2⟩ | rfl <;> rcases hcases r' hr' hp' with ⟨h1', h2'⟩ | rfl
    · rw [c.iop r h1, c.iop r' h1'] at he
      exact w.inj r r' h1 h1' h2 h2' he
    · rw [c.iop r h1, c.root] at he
      have he : (h.iop r).1 = h.nextDict := he
      have := (w.root r h1 h2).2
      omega
    · rw [c.iop r' h1', c.root] at he
      have he : h.nextDict = (h.iop r').1 := he
      have := (w.root r' h1' h2').2
      omega
    · rfl
  · intro r y n hr hp ha hne
    rw [c.graph] at ha
    rcases hcases r hr hp with ⟨h1, h2⟩ | rfl
    · obtain ⟨h3, h4⟩ := raw_at_old s h1 ha
      rw [c.iop y h3, c.iop r h1, holdsz y h3]
      exact w.view r y n h1 h2 h4 hne
    · obtain ⟨z, hz, rfl⟩ := raw_at_inv s hx ha
      have hzx : z ≠ x := by rintro rfl; exact hne rfl
      rw [c.view z n hz hzx, c.root]
      rw [show h'.size = (h.rawCopy x).size by rw [c.graph], raw_size_new s (hz.anc s)]
  · intro r hr hp
    rcases hcases r hr hp with ⟨h1, h2⟩ | rfl
    · rw [hdict r h1 h2]; exact w.dict r h1 h2
    · rw [c.root]; exact c.wf
  · intro r hr hp t i hi
    rcases hcases r hr hp with ⟨h1, h2⟩ | rfl
    · rw [hdict r h1 h2] at hi
      rw [holdsz r h1]; exact w.bound r h1 h2 t i hi
    · rw [c.root] at hi
      rw [hnewsz]
      exact ((w.mem_constraints hr0lt hr0 hn0).mp ((hmem t i).mp hi)).1
  · intro r hr hp t u i hi hj
    rcases hcases r hr hp with ⟨h1, h2⟩ | rfl
    · rw [hdict r h1 h2] at hi hj
      exact w.single r h1 h2 t u i hi hj
    · rw [c.root] at hi hj
      exact w.single r0 hr0lt hr0 t u _
        ((w.mem_constraints hr0lt hr0 hn0).mp ((hmem _ i).mp hi)).2
        ((w.mem_constraints hr0lt hr0 hn0).mp ((hmem _ i).mp hj)).2
  · intro r hr hp hlf m hm
    rcases hcases r hr hp with ⟨h1, h2⟩ | rfl
    · rw [hdict r h1 h2, holdsz r h1]
      rw [c.fixes r h1] at hm
      exact w.mask r h1 h2 (by rw [← holdlf r h1]; exact hlf) m hm
    · rw [c.mask (by rw [← hnewlf]; exact hlf)] at hm
      rw [c.root, hnewsz]
      unfold freshMask at hm
      split at hm
      · cases hm
        exact ⟨by simp [maskOf], fun _ => rfl⟩
      · cases hm
  · intro r hr hp hlf hii hin
    rcases hcases r hr hp with ⟨h1, h2⟩ | rfl
    · rw [hdict r h1 h2, holdsz r h1, c.fixes r h1]
      exact w.ready r h1 h2 (by rw [← holdlf r h1]; exact hlf) (by rw [← c.inInit r h1]; exact hii)
        (by rw [← c.inited r h1]; exact hin)
    · rw [c.mask (by rw [← hnewlf]; exact hlf), c.root, hnewsz]
      unfold freshMask
      split
      · refine ⟨fun hm => (by cases hm), fun m hm => ?_⟩
        cases hm
        simp [maskOf]
      · rename_i he
        exact ⟨fun _ => not_not.mp he, fun m hm => by cases hm⟩

/-! ### The object that is copied -/

theorem readOptimizerArray_wf {h : Heap T} (w : WF h) {x : Id} :
    WF (h.readOptimizerArray x) := by
  unfold readOptimizerArray
  split
  · exact w
  · have hm : ∀ r, r < h.next → h.parent r = none → h.leaf r = false →
        h.ensureFixes r = maskOf (h.size r) (lookup (h.dicts (h.iop r).1) .fixed) := by
      intro r hr hp hlf
      have hc : h.constraints r .fixed = lookup (h.dicts (h.iop r).1) .fixed := by
        unfold constraints
        rw [(w.root r hr hp).1, Iop.get_base]
      unfold ensureFixes
      rw [hlf, hc]
      cases hf : h.fixes r with
      | none => simp
      | some m =>
        simp only [Bool.false_eq_true, if_false]
        split
        · rfl
        · rename_i he
          exact (w.mask r hr hp hlf m hf).2 (not_not.mp he)
    refine ⟨w.1, w.2, w.3, w.4, w.5, w.6, w.7, w.8, ?_, ?_⟩
    · intro r hr hp hlf m hf
      have hf : upd h.fixes x (some (h.ensureFixes x)) r = some m := hf
      by_cases hrx : r = x
      · subst hrx
        rw [upd_same] at hf
        cases hf
        rw [hm r hr hp hlf]
        exact ⟨by simp [maskOf], fun _ => rfl⟩
      · rw [upd_ne _ _ hrx] at hf
        exact w.mask r hr hp hlf m hf
    · intro r hr hp hlf hii hin
      show (upd h.fixes x (some (h.ensureFixes x)) r = none → _) ∧
        ∀ m, upd h.fixes x (some (h.ensureFixes x)) r = some m → _
      by_cases hrx : r = x
      · subst hrx
        rw [upd_same]
        refine ⟨fun hf => (by cases hf), fun m hf => ?_⟩
        cases hf
        rw [hm r hr hp hlf]
        simp [maskOf]
      · rw [upd_ne _ _ hrx]
        exact w.ready r hr hp hlf hii hin

theorem readOptimizerArray_eq (h : Heap T) (x : Id) :
    ∃ F, h.readOptimizerArray x = { h with fixes := F } := by
  unfold readOptimizerArray
  split
  · exact ⟨h.fixes, rfl⟩
  · exact ⟨_, rfl⟩

theorem beforeCopy_eq (h : Heap T) (x : Id) :
    ∃ F V, h.beforeCopy x = { h with fixes := F, visited := V } := by
  unfold beforeCopy
  split
  · exact ⟨h.fixes, _, rfl⟩
  · obtain ⟨F, he⟩ := readOptimizerArray_eq h x
    refine ⟨F, ((h.readOptimizerArray x).copySearch x).marks, ?_⟩
    rw [he]

theorem beforeCopy_wf {h : Heap T} (w : WF h) (x : Id) : WF (h.beforeCopy x) := by
  have key : ∀ {h : Heap T}, WF h → ∀ v : Id → Bool, WF ({ h with visited := v } : Heap T) :=
    fun w v => ⟨w.1, w.2, w.3, w.4, w.5, w.6, w.7, w.8, w.9, w.10⟩
  unfold beforeCopy
  cases hl : h.leaf x with
  | true => exact key w _
  | false => exact key (readOptimizerArray_wf w) _

theorem copied_wf {h : Heap T} (w : WF h) {x : Id} (hx : x < h.next) : WF (h.copy x).1 := by
  refine (beforeCopy_wf w x).copied ?_ (copy_copied w.skel hx).1
  rw [show (h.beforeCopy x).next = h.next by rw [beforeCopy_graph]]
  exact hx

end Heap

end Paramz.Hier

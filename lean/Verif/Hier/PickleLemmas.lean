import Verif.Hier.CopyLemmas
import Verif.Hier.Pickle

/-!
# Lemmas about pickling
-/

set_option linter.unusedSectionVars false

namespace Paramz.Hier

open IndexOps (Arr Dict Iop lookup)
open Graph (Anc At Skel Sized)

/-! ### The search -/

section Visit

variable {refs : Id → List Id}

/-- The memo only grows, and what is new in it has been written. -/
theorem visitF_memo : ∀ (n : Nat) (s : List Id × List Id) (y : Id),
    (∀ z, z ∈ s.1 → z ∈ (visitF refs n s y).1) ∧
    (∀ z, z ∈ (visitF refs n s y).2 → z ∈ s.2 ∨ z ∉ s.1) ∧
    (∀ z, z ∈ s.2 → z ∈ (visitF refs n s y).2) ∧
    (∀ z, z ∈ (visitF refs n s y).1 → z ∈ s.1 ∨ z ∈ (visitF refs n s y).2)
  | 0, s, y => ⟨fun _ h => h, fun _ h => .inl h, fun _ h => h, fun _ h => .inl h⟩
  | n + 1, s, y => by
    have key : ∀ (L : List Id) (s : List Id × List Id),
        (∀ z, z ∈ s.1 → z ∈ (L.foldl (visitF refs n) s).1) ∧
        (∀ z, z ∈ (L.foldl (visitF refs n) s).2 → z ∈ s.2 ∨ z ∉ s.1) ∧
        (∀ z, z ∈ s.2 → z ∈ (L.foldl (visitF refs n) s).2) ∧
        (∀ z, z ∈ (L.foldl (visitF refs n) s).1 → z ∈ s.1 ∨ z ∈ (L.foldl (visitF refs n) s).2) := by
      intro L
      induction L with
      | nil => intro s; exact ⟨fun _ h => h, fun _ h => .inl h, fun _ h => h, fun _ h => .inl h⟩
      | cons c L ih =>
        intro s
        obtain ⟨a1, a2, a3, a4⟩ := visitF_memo n s c
        obtain ⟨b1, b2, b3, b4⟩ := ih (visitF refs n s c)
        rw [List.foldl_cons]
        refine ⟨fun z h => b1 z (a1 z h), fun z h => ?_, fun z h => b3 z (a3 z h), fun z h => ?_⟩
        · rcases b2 z h with h | h
          · exact a2 z h
          · exact .inr (fun hz => h (a1 z hz))
        · rcases b4 z h with h | h
          · rcases a4 z h with h | h
            · exact .inl h
            · exact .inr (b3 z h)
          · exact .inr h
    unfold visitF
    split
    · exact ⟨fun _ h => h, fun _ h => .inl h, fun _ h => h, fun _ h => .inl h⟩
    · rename_i hy
      obtain ⟨b1, b2, b3, b4⟩ := key (refs y) (y :: s.1, s.2)
      simp only
      refine ⟨fun z h => b1 z (by simp [h]), fun z h => ?_, fun z h => by simp [b3 z h], fun z h => ?_⟩
      · rw [List.mem_append, List.mem_singleton] at h
        rcases h with h | rfl
        · rcases b2 z h with h | h
          · exact .inl h
          · exact .inr (fun hz => h (by simp [hz]))
        · exact .inr hy
      · rcases b4 z h with h | h
        · rw [List.mem_cons] at h
          rcases h with rfl | h
          · exact .inr (by simp)
          · exact .inl h
        · exact .inr (by simp [h])

theorem visitF_self (n : Nat) (s : List Id × List Id) (y : Id) :
    y ∈ (visitF refs (n + 1) s y).1 := by
  unfold visitF
  split
  · assumption
  · rename_i hy
    have : ∀ (L : List Id) (s : List Id × List Id), y ∈ s.1 → y ∈ (L.foldl (visitF refs n) s).1 := by
      intro L
      induction L with
      | nil => intro s h; exact h
      | cons c L ih => intro s h; exact ih _ ((visitF_memo n s c).1 y h)
    exact this _ _ (by simp)

theorem visit_fold_memo {n : Nat} : ∀ (L : List Id) (s : List Id × List Id),
    (∀ z, z ∈ s.1 → z ∈ (L.foldl (visitF refs n) s).1) ∧
    (∀ z, z ∈ (L.foldl (visitF refs n) s).2 → z ∈ s.2 ∨ z ∉ s.1) ∧
    (∀ z, z ∈ s.2 → z ∈ (L.foldl (visitF refs n) s).2) ∧
    (∀ z, z ∈ (L.foldl (visitF refs n) s).1 → z ∈ s.1 ∨ z ∈ (L.foldl (visitF refs n) s).2)
  | [], s => ⟨fun _ h => h, fun _ h => .inl h, fun _ h => h, fun _ h => .inl h⟩
  | c :: L, s => by
    obtain ⟨a1, a2, a3, a4⟩ := visitF_memo (refs := refs) n s c
    obtain ⟨b1, b2, b3, b4⟩ := visit_fold_memo L (visitF refs n s c)
    rw [List.foldl_cons]
    refine ⟨fun z h => b1 z (a1 z h), fun z h => ?_, fun z h => b3 z (a3 z h), fun z h => ?_⟩
    · rcases b2 z h with h | h
      · exact a2 z h
      · exact .inr (fun hz => h (a1 z hz))
    · rcases b4 z h with h | h
      · rcases a4 z h with h | h
        · exact .inl h
        · exact .inr (b3 z h)
      · exact .inr h

/-- Whatever an object refers to is written before the object itself. -/
theorem visit_refs_first {n : Nat} {x p : Id} (hp : p ∈ refs x) (hne : p ≠ x) :
    ∃ l, (visitF refs (n + 2) ([], []) x).2 = l ++ [x] ∧ p ∈ l ∧ x ∉ l := by
  unfold visitF
  rw [if_neg (by simp)]
  refine ⟨_, rfl, ?_, ?_⟩
  · have h1 : p ∈ ((refs x).foldl (visitF refs (n + 1)) ([x], [])).1 := by
      obtain ⟨A, B, hAB⟩ := List.append_of_mem hp
      rw [hAB, List.foldl_append, List.foldl_cons]
      exact (visit_fold_memo B _).1 p (visitF_self n _ p)
    rcases (visit_fold_memo (refs x) ([x], [])).2.2.2 p h1 with h | h
    · simp at h; exact absurd h hne
    · exact h
  · intro hx
    rcases (visit_fold_memo (refs x) ([x], [])).2.1 x hx with h | h
    · simp at h
    · simp at h

end Visit

namespace Heap

variable {T : Type} [DecidableEq T]

/-! ### Setting the states -/

/-- Every object of the list comes once, after its children. `b`: what came before. -/
def Ready (h : Heap T) : List Id → List Id → Prop
  | _, [] => True
  | b, y :: L => y ∉ b ∧ (∀ c ∈ h.kids y, c ∈ b) ∧ h.Ready (y :: b) L

theorem Ready.congr {h : Heap T} : ∀ {L b b' : List Id}, (∀ z, z ∈ b ↔ z ∈ b') → h.Ready b L → h.Ready b' L
  | [], _, _, _, _ => trivial
  | y :: L, b, b', hb, hr =>
    ⟨fun h => hr.1 ((hb y).mpr h), fun c hc => (hb c).mp (hr.2.1 c hc),
      Ready.congr (b := y :: b) (fun z => by simp [hb z]) hr.2.2⟩

theorem Ready.append {h : Heap T} : ∀ {L M b : List Id}, h.Ready b L → h.Ready (L ++ b) M → h.Ready b (L ++ M)
  | [], _, _, _, h2 => h2
  | y :: L, M, b, h1, h2 =>
    ⟨h1.1, h1.2.1, Ready.append h1.2.2 (h2.congr (fun z => by simp; tauto))⟩

theorem Ready.weaken {h : Heap T} : ∀ {L b b' : List Id}, (∀ z ∈ b, z ∈ b') → (∀ z ∈ L, z ∉ b') →
    h.Ready b L → h.Ready b' L
  | [], _, _, _, _, _ => trivial
  | y :: L, b, b', hb, hd, hr => by
    refine ⟨hd y (by simp), fun c hc => hb c (hr.2.1 c hc), Ready.weaken (b := y :: b) ?_ ?_ hr.2.2⟩
    · intro z hz; rw [List.mem_cons] at hz ⊢; exact hz.imp_right (hb z)
    · intro z hz hm
      rw [List.mem_cons] at hm
      rcases hm with rfl | hm
      · exact Ready.fresh hr.2.2 z hz (by simp)
      · exact hd z (by simp [hz]) hm
where
  Ready.fresh {h : Heap T} : ∀ {L b : List Id}, h.Ready b L → ∀ z ∈ L, z ∉ b
    | y :: L, b, hr, z, hz => by
      rw [List.mem_cons] at hz
      rcases hz with rfl | hz
      · exact hr.1
      · exact fun hb => Ready.fresh hr.2.2 z hz (by simp [hb])

/-- Connecting in turn. -/
def connectAll (h : Heap T) (r : Id) (H : Heap T) (L : List Id) : Heap T :=
  L.foldl (fun H y => if h.leaf y then H else H.reconnect (h.copyOf r y)) H

theorem buildAll_ready {h : Heap T} {r : Id} : ∀ (L : List Id) (H : Heap T) (b : List Id), h.Ready b L →
    ∃ b', h.buildAll r L (H, b) = some (h.connectAll r H L, b')
  | [], H, b, _ => ⟨b, rfl⟩
  | y :: L, H, b, hr => by
    unfold buildAll buildOne connectAll
    rw [List.foldl_cons]
    by_cases hl : h.leaf y = true
    · simp only [hl, if_true]
      exact buildAll_ready L H (y :: b) hr.2.2
    · simp only [hl, if_pos hr.2.1]
      exact buildAll_ready L _ (y :: b) hr.2.2

theorem buildAll_none {h : Heap T} {r x p : Id} (hl : h.leaf p = false) (hx : x ∈ h.kids p) :
    ∀ (L : List Id) (s : Heap T × List Id), p ∈ L → x ∉ L → x ∉ s.2 → h.buildAll r L s = none
  | y :: L, s, hp, hxL, hxs => by
    unfold buildAll
    rw [List.mem_cons] at hp
    simp only [List.mem_cons, not_or] at hxL
    cases hb : h.buildOne r s y with
    | none => rfl
    | some s' =>
      simp only
      have hs2 : s'.2 = y :: s.2 := by
        unfold buildOne at hb
        split at hb
        · cases hb; rfl
        · split at hb
          · cases hb; rfl
          · cases hb
      rcases hp with rfl | hp
      · exfalso
        unfold buildOne at hb
        rw [if_neg (by simp [hl]), if_neg (fun hk => hxs (hk x hx))] at hb
        cases hb
      · exact buildAll_none hl hx L s' hp hxL.2 (by rw [hs2]; simp; exact ⟨hxL.1, hxs⟩)

/-! ### The search from a root -/

/-- From an object whose parent is in the memo and below which nothing is, the search meets exactly what
is below the object, children before parents. -/
theorem visit_tree {h : Heap T} {refs : Id → List Id} (s : Skel h.toGraph) (hrefs : h.Refs refs)
    {d : Id → Nat} (hd : ∀ c p, h.toGraph.parent c = some p → d p < d c)
    (hb : ∀ x, d x ≤ h.toGraph.next) : ∀ (n : Nat) (y : Id) (M o : List Id), h.toGraph.next < n + d y →
    (∀ z, Anc h.toGraph y z → z ∉ M) → (∀ p, h.parent y = some p → p ∈ M) →
    ∃ M' l, visitF refs n (M, o) y = (M', o ++ (l ++ [y])) ∧
      (∀ z, z ∈ M' ↔ z ∈ M ∨ Anc h.toGraph y z) ∧
      (∀ z, z ∈ l ++ [y] ↔ Anc h.toGraph y z) ∧ h.Ready [] (l ++ [y])
  | 0, y, _, _, hf, _, _ => absurd (hb y) (by omega)
  | n + 1, y, M, o, hf, hM, hp => by
    have or1 : ∀ a b e f : Prop, (a ∨ b ∨ e) ∨ f ↔ a ∨ b ∨ f ∨ e := by intros; tauto
    have key : ∀ (L : List Id) (K : List Id) (M1 l : List Id), (∀ c ∈ L, c ∈ refs y) → (∀ c ∈ K, c ∈ h.kids y) →
        (∀ z, z ∈ M1 ↔ z ∈ M ∨ z = y ∨ ∃ c ∈ K, Anc h.toGraph c z) →
        (∀ z, z ∈ l ↔ ∃ c ∈ K, Anc h.toGraph c z) → h.Ready [] l →
        ∃ K' M2 l' : List Id, L.foldl (visitF refs n) (M1, o ++ l) = (M2, o ++ l') ∧ (∀ c ∈ K', c ∈ h.kids y) ∧
          (∀ c ∈ K, c ∈ K') ∧ (∀ c ∈ L, c ∈ h.kids y → c ∈ K') ∧
          (∀ z, z ∈ M2 ↔ z ∈ M ∨ z = y ∨ ∃ c ∈ K', Anc h.toGraph c z) ∧
          (∀ z, z ∈ l' ↔ ∃ c ∈ K', Anc h.toGraph c z) ∧ h.Ready [] l' := by
      intro L
      induction L with
      | nil =>
        intro K M1 l _ hK h1 h2 h3
        exact ⟨K, M1, l, rfl, hK, fun _ h => h, (by simp), h1, h2, h3⟩
      | cons c L ih =>
        intro K M1 l hL hK h1 h2 h3
        rw [List.foldl_cons]
        by_cases hc : c ∈ M1
        · have hs : visitF refs n (M1, o ++ l) c = (M1, o ++ l) := by
            cases n with
            | zero => rfl
            | succ n => unfold visitF; rw [if_pos hc]
          rw [hs]
          obtain ⟨K', M2, l', e1, e2, e3, e4, e5, e6, e7⟩ := ih K M1 l (fun z hz => hL z (by simp [hz])) hK h1 h2 h3
          refine ⟨K', M2, l', e1, e2, e3, ?_, e5, e6, e7⟩
          intro z hz hk
          rw [List.mem_cons] at hz
          rcases hz with rfl | hz
          · have hzp := (s.mem_iff _ _).mp hk
            apply e3
            rcases (h1 z).mp hc with h | h | ⟨e, he, ha⟩
            · exact absurd h (hM z (.of_parent hzp))
            · subst h; exact absurd .refl (s.not_anc_parent hzp)
            · have hep := (s.mem_iff _ _).mp (hK e he)
              rcases (Graph.anc_iff_of_parent hzp).mp ha with rfl | h
              · exact he
              · exact absurd h (s.not_anc_parent hep)
          · exact e4 z hz hk
        · have hck : c ∈ h.kids y := by
            rcases (hrefs y c).mp (hL c (by simp)) with h | h
            · exact h
            · exact absurd ((h1 c).mpr (.inl (hp c h))) hc
          have hcp := (s.mem_iff _ _).mp hck
          have hcK : c ∉ K := fun hK' => hc ((h1 c).mpr (.inr (.inr ⟨c, hK', .refl⟩)))
          have hdis : ∀ z, Anc h.toGraph c z → z ∉ M1 := by
            intro z hz hm
            rcases (h1 z).mp hm with h | h | ⟨e, he, ha⟩
            · exact hM z ((Anc.of_parent hcp).trans hz) h
            · subst h; exact s.not_anc_parent hcp hz
            · have hep := (s.mem_iff _ _).mp (hK e he)
              have hne : e ≠ c := by rintro rfl; exact hcK he
              rcases Graph.Anc.total ha hz with h1 | h1
              · rcases (Graph.anc_iff_of_parent hcp).mp h1 with h2 | h2
                · exact hne h2
                · exact s.not_anc_parent hep h2
              · rcases (Graph.anc_iff_of_parent hep).mp h1 with h2 | h2
                · exact hne h2.symm
                · exact s.not_anc_parent hcp h2
          obtain ⟨M', lc, v1, v2, v3, v4⟩ := visit_tree s hrefs hd hb n c M1 (o ++ l)
            (by have := hd _ _ hcp; omega) hdis (by
              intro p hpp
              rw [show h.parent c = some y from hcp] at hpp
              cases hpp
              exact (h1 y).mpr (.inr (.inl rfl)))
          rw [v1, List.append_assoc]
          obtain ⟨K', M2, l', e1, e2, e3, e4, e5, e6, e7⟩ := ih (c :: K) M' (l ++ (lc ++ [c]))
            (fun z hz => hL z (by simp [hz]))
            (fun z hz => by
              rw [List.mem_cons] at hz
              rcases hz with rfl | hz
              · exact hck
              · exact hK z hz)
            (fun z => by
              rw [v2, h1]
              simp only [List.mem_cons, exists_eq_or_imp]
              exact or1 _ _ _ _)
            (fun z => by
              rw [List.mem_append, h2, v3]
              simp only [List.mem_cons, exists_eq_or_imp]
              exact or_comm)
            (h3.append (v4.weaken (by simp) (fun z hz hm => by
              rw [List.append_nil] at hm
              obtain ⟨e, he, ha⟩ := (h2 z).mp hm
              exact hdis z ((v3 z).mp hz) ((h1 z).mpr (.inr (.inr ⟨e, he, ha⟩))))))
          refine ⟨K', M2, l', e1, e2, fun z hz => e3 z (by simp [hz]), ?_, e5, e6, e7⟩
          intro z hz hk
          rw [List.mem_cons] at hz
          rcases hz with rfl | hz
          · exact e3 z (by simp)
          · exact e4 z hz hk
    have hyM : y ∉ M := hM y .refl
    unfold visitF
    rw [if_neg hyM]
    obtain ⟨K', M2, l', e1, e2, -, e4, e5, e6, e7⟩ := key (refs y) [] (y :: M) [] (fun _ h => h) (by simp)
      (fun z => by simp; tauto) (by simp) trivial
    rw [List.append_nil] at e1
    simp only
    rw [e1]
    have hall : ∀ z, Anc h.toGraph y z ↔ z = y ∨ ∃ c ∈ K', Anc h.toGraph c z := by
      intro z
      constructor
      · intro hz
        by_cases hzy : z = y
        · exact .inl hzy
        · right
          obtain ⟨e, A, B, hk, he⟩ := Graph.Ins.child_above s hz (fun h => hzy h.symm)
          have hek : e ∈ h.kids y := by rw [show h.kids y = _ from hk]; simp
          exact ⟨e, e4 e ((hrefs y e).mpr (.inl hek)) hek, he⟩
      · rintro (rfl | ⟨c, hc, ha⟩)
        · exact .refl
        · exact (Anc.of_parent ((s.mem_iff _ _).mp (e2 c hc))).trans ha
    refine ⟨M2, l', by simp, ?_, ?_, ?_⟩
    · intro z; rw [e5, hall]
    · intro z; rw [List.mem_append, List.mem_singleton, e6, hall]; exact or_comm
    · refine e7.append ⟨?_, ?_, trivial⟩
      · rw [List.append_nil, e6]
        rintro ⟨c, hc, ha⟩
        exact s.not_anc_parent ((s.mem_iff _ _).mp (e2 c hc)) ha
      · intro c hc
        rw [List.append_nil, e6]
        exact ⟨c, e4 c ((hrefs y c).mpr (.inl hc)) hc, .refl⟩

/-- A root is pickled with everything below it, children first. -/
theorem order_root {h : Heap T} {refs : Id → List Id} (s : Skel h.toGraph) (hrefs : h.Refs refs) {x : Id}
    (hx : h.parent x = none) :
    ∃ l, h.buildOrder refs x = l ++ [x] ∧ (∀ z, z ∈ l ++ [x] ↔ Anc h.toGraph x z) ∧ h.Ready [] (l ++ [x]) := by
  obtain ⟨d, hd, hb⟩ := s.rank
  obtain ⟨M', l, v1, -, v3, v4⟩ := visit_tree s hrefs hd hb h.toGraph.fuel x [] []
    (by unfold Graph.fuel; omega) (by simp) (by intro p hp; rw [hx] at hp; cases hp)
  refine ⟨l, ?_, v3, v4⟩
  unfold buildOrder
  rw [v1]
  rfl

/-! ### Connecting objects that share a dictionary -/

/-- `_connect_fixes` of an object with any view: what is recorded stays the same. -/
theorem connectFixes_any (h : Heap T) (x : Id) :
    ∃ (D : Dict (Con T)) (F : Option (List Bool)),
      (∀ t, lookup D t = lookup (h.dicts (h.iop x).1) t) ∧
      (IndexOps.WF (h.dicts (h.iop x).1) → IndexOps.WF D) ∧
      h.connectFixes x = { h with
        dicts := upd h.dicts (h.iop x).1 D
        fixes := upd h.fixes x F } := by
  by_cases hb : (h.iop x).2 = .base
  · obtain ⟨D, h1, h2, h3⟩ := connectFixes_eq h x hb
    exact ⟨D, _, h1, h2, h3⟩
  · cases hv : (h.iop x).2 with
    | base => exact absurd hv hb
    | view u o n =>
      have hl : ∀ t, lookup ((Iop.view u o n).getItem (h.dicts (h.iop x).1) Con.fixed).1 t =
          lookup (h.dicts (h.iop x).1) t := fun t => Iop.getItem_lookup _ _ _ _
      by_cases hr : ((Iop.view u o n).getItem (h.dicts (h.iop x).1) Con.fixed).2 = []
      · set d1 := ((Iop.view u o n).getItem (h.dicts (h.iop x).1) Con.fixed).1 with hd1
        have hr2 : ((Iop.view u o n).getItem d1 Con.fixed).2 = [] := by
          have e : ∀ d d' : Dict (Con T), (∀ t, lookup d t = lookup d' t) →
              ∀ v : Iop, (v.getItem d .fixed).2 = (v.getItem d' .fixed).2 := by
            intro d d' he v
            induction v with
            | base => exact (IndexOps.getItem_snd _ _).trans ((he _).trans (IndexOps.getItem_snd _ _).symm)
            | view u o s ih => show Iop.filterIndex _ _ _ = Iop.filterIndex _ _ _; rw [ih]
          rw [e d1 _ hl]; exact hr
        refine ⟨((Iop.view u o n).remove ((Iop.view u o n).getItem d1 Con.fixed).1 Con.fixed []).1, none,
          ?_, ?_, ?_⟩
        · intro t
          rw [Iop.remove_fst_eq]
          simp only [List.map_nil]
          rw [IndexOps.lookup_remove, Iop.getItem_lookup, hl]
          split
          · rename_i e
            subst e
            simp [IndexOps.setdiff1d]
          · rw [Iop.getItem_lookup, hl]
        · intro hw
          exact Iop.remove_wf _ (Iop.getItem_wf _ (Iop.getItem_wf _ hw _) _) _ _
        · simp only [connectFixes, hv, hr, ne_eq, not_true_eq_false, if_false, Iop.delItem]
          rw [← hd1, hr2]
      · refine ⟨((Iop.view u o n).getItem (h.dicts (h.iop x).1) Con.fixed).1, some (maskOf (h.size x)
          ((Iop.view u o n).getItem (h.dicts (h.iop x).1) Con.fixed).2), hl, ?_, ?_⟩
        · intro hw; exact Iop.getItem_wf _ hw _
        · simp only [connectFixes, hv, ne_eq, hr, not_false_eq_true, if_true]

/-- What connecting objects of the tree of `y`, all of which use dictionary `nd`, leaves as it was. -/
structure Kept (R H : Heap T) (nd : Nat) (y : Id) : Prop where
  graph : H.toGraph = R.toGraph
  nextDict : H.nextDict = R.nextDict
  inInit : H.inInit = R.inInit
  visited : H.visited = R.visited
  iop : ∀ i, ¬ (Anc R.toGraph y i ∧ i ≠ y) → H.iop i = R.iop i
  uses : ∀ i, Anc R.toGraph y i → (H.iop i).1 = nd
  fixes : ∀ i, ¬ Anc R.toGraph y i → H.fixes i = R.fixes i
  inited : ∀ i, ¬ Anc R.toGraph y i → H.inited i = R.inited i
  dicts : ∀ d, d ≠ nd → H.dicts d = R.dicts d
  own : ∀ t, lookup (H.dicts nd) t = lookup (R.dicts nd) t
  wf : IndexOps.WF (R.dicts nd) → IndexOps.WF (H.dicts nd)

theorem Kept.reconnect {R H : Heap T} {nd : Nat} {y z : Id} (s : Skel R.toGraph) (k : Kept R H nd y)
    (hz : Anc R.toGraph y z) : Kept R (H.reconnect z) nd y := by
  have sH : Skel H.toGraph := by rw [k.graph]; exact s
  have hce := connect_eq sH z
  obtain ⟨D, F, hD, hDw, hc⟩ := connectFixes_any (H.connect z) z
  have hi1 : (H.connect z).iop = H.iop := by rw [hce]
  have hd1 : (H.connect z).dicts = H.dicts := by rw [hce]
  rw [hi1, hd1, k.uses z hz] at hD hDw hc
  have hg : ((H.connect z).connectFixes z).toGraph = H.toGraph := by rw [hc, hce]
  have hn := notify_eq (h := (H.connect z).connectFixes z) (by rw [hg]; exact sH) z
  have hbel : ∀ i, i ∈ ((H.connect z).connectFixes z).toGraph.below z ↔ i ≠ z ∧ Anc R.toGraph z i := by
    intro i
    have s1 : Skel ((H.connect z).connectFixes z).toGraph := by rw [hg]; exact sH
    rw [s1.mem_below, hg, k.graph]
  have hi2 : ((H.connect z).connectFixes z).iop = H.iop := by rw [hc, hce]
  have he : H.reconnect z = _ := hn
  have hno : ∀ i, ¬ Anc R.toGraph y i → i ∉ ((H.connect z).connectFixes z).toGraph.below z :=
    fun i hi hm => hi (hz.trans ((hbel i).mp hm).2)
  have hds : (H.reconnect z).dicts = upd H.dicts nd D := by
    rw [he]
    show ((H.connect z).connectFixes z).dicts = _
    rw [hc, hce]
  constructor
  · rw [he]; show ((H.connect z).connectFixes z).toGraph = _; rw [hg, k.graph]
  · rw [he]; show ((H.connect z).connectFixes z).nextDict = _; rw [hc, hce]; exact k.nextDict
  · rw [he]; show ((H.connect z).connectFixes z).inInit = _; rw [hc, hce]; exact k.inInit
  · rw [he]; show ((H.connect z).connectFixes z).visited = _; rw [hc, hce]; exact k.visited
  · intro i hi
    rw [he]
    show (if i ∈ ((H.connect z).connectFixes z).toGraph.below z then _ else _) = _
    rw [if_neg ?_, hi2, k.iop i hi]
    intro hm
    obtain ⟨h1, h2⟩ := (hbel i).mp hm
    refine hi ⟨hz.trans h2, ?_⟩
    rintro rfl
    exact h1 (s.anc_antisymm hz h2)
  · intro i hi
    rw [he]
    show (if i ∈ ((H.connect z).connectFixes z).toGraph.below z then _ else _ : Nat × Iop).1 = _
    split
    · rw [hi2]; exact k.uses z hz
    · rw [hi2]; exact k.uses i hi
  · intro i hi
    rw [he]
    show (if i ∈ ((H.connect z).connectFixes z).toGraph.below z then _ else _) = _
    rw [if_neg (hno i hi), hc, hce]
    show upd H.fixes z F i = _
    rw [upd_ne _ _ (by rintro rfl; exact hi hz), k.fixes i hi]
  · intro i hi
    rw [he]
    show ((H.connect z).connectFixes z).inited i = _
    rw [hc, hce]
    show (if i ∈ H.toGraph.subtree z then _ else _) = _
    rw [if_neg ?_, k.inited i hi]
    rw [sH.mem_subtree, k.graph]
    exact fun hh => hi (hz.trans hh)
  · intro d hd
    rw [hds, upd_ne _ _ hd, k.dicts d hd]
  · intro t
    rw [hds, upd_same, hD, k.own]
  · intro hw
    rw [hds, upd_same]
    exact hDw (k.wf hw)

/-! ### The result of loading a root -/

theorem load_iop_new {h : Heap T} {r y : Id} (s : Skel h.toGraph) (hy : Anc h.toGraph r y) :
    (h.rawLoad r).iop (h.copyOf r y) = (h.nextDict, (h.iop y).2) :=
  lift_new s _ _ hy

theorem rawLoad_kept {h : Heap T} {r : Id} (s : Skel h.toGraph) :
    Kept (h.rawLoad r) (h.rawLoad r) h.nextDict (h.copyOf r r) := by
  refine ⟨rfl, rfl, rfl, rfl, fun _ _ => rfl, ?_, fun _ _ => rfl, fun _ _ => rfl, fun _ _ => rfl,
    fun _ => rfl, fun h => h⟩
  intro i hi
  obtain ⟨y, hy, rfl⟩ := raw_anc_inv s (show Anc (h.rawCopy r).toGraph _ _ from hi)
  rw [load_iop_new s hy]

theorem connectAll_kept {h : Heap T} {r : Id} (s : Skel h.toGraph) (hr : r < h.next) :
    ∀ (L : List Id) (H : Heap T), (∀ y ∈ L, Anc h.toGraph r y) →
    Kept (h.rawLoad r) H h.nextDict (h.copyOf r r) →
    Kept (h.rawLoad r) (h.connectAll r H L) h.nextDict (h.copyOf r r)
  | [], _, _, k => k
  | y :: L, H, hL, k => by
    unfold connectAll
    rw [List.foldl_cons]
    apply connectAll_kept s hr L _ (fun z hz => hL z (by simp [hz]))
    split
    · exact k
    · exact k.reconnect (show Skel (h.rawLoad r).toGraph from raw_skel s hr)
        (show Anc (h.rawCopy r).toGraph _ _ from raw_anc s (hL y (by simp)))

theorem sorted_of_wf {d : Dict (Con T)} (hd : IndexOps.WF d) (t : Con T) :
    (lookup d t).Pairwise (· < ·) := by
  rw [← Iop.get_base]; exact Iop.sorted_get _ hd _

/-- A dictionary and its copy record the same. -/
theorem lookup_copy {d : Dict (Con T)} (hd : IndexOps.WF d) (t : Con T) :
    lookup (Iop.base.copy d) t = lookup d t := by
  refine IndexOps.sorted_ext ?_ ?_ (fun i => ?_)
  · exact sorted_of_wf (copy_wf .base d) t
  · exact sorted_of_wf hd t
  · rw [mem_copy _ hd, Iop.get_base]

theorem Kept.settled {h H : Heap T} {r : Id} (w : WF h) (hr : r < h.next) (hp : h.parent r = none)
    (k : Kept (h.rawLoad r) H h.nextDict (h.copyOf r r)) :
    Heap.Settled (h.rawCopy r) H (h.copyOf r r) := by
  have s := w.skel
  have hroot : (h.rawCopy r).iop (h.copyOf r r) = (h.nextDict, .base) := by
    rw [raw_iop_new s .refl, idxOf_self]; rfl
  have hbase := (w.root r hr hp).1
  have hd0 : (h.rawLoad r).dicts h.nextDict = h.dicts (h.iop r).1 := if_pos rfl
  refine ⟨k.graph, k.nextDict, k.inInit, k.visited, ?_, k.fixes, k.inited, ?_, ?_, ?_⟩
  · intro i hi
    rw [k.iop i hi]
    by_cases ha : Anc (h.rawCopy r).toGraph (h.copyOf r r) i
    · have : i = h.copyOf r r := by by_contra hne; exact hi ⟨ha, hne⟩
      subst this
      rw [hroot, load_iop_new s .refl, hbase]
    · show h.lift r _ _ i = h.lift r _ _ i
      unfold lift
      cases hpk : pick (h.toGraph.subtree r) h.next i with
      | none => rfl
      | some y =>
        exfalso
        rw [pick_some (Graph.nodup_subtree s r)] at hpk
        apply ha
        have hy := s.mem_subtree.mp hpk.1
        rw [show i = h.copyOf r y from hpk.2]
        exact raw_anc s hy
  · intro d hd
    have hd1 : d ≠ h.nextDict := by
      have := hd _ .refl; rw [hroot] at this; exact this
    rw [k.dicts d hd1]
    show (if d = h.nextDict then _ else _) = _
    rw [if_neg hd1]
    show _ = (match pick (h.toGraph.subtree r) h.nextDict d with
      | none => h.dicts d
      | some y => (h.iop y).2.copy (h.dicts (h.iop y).1))
    cases hpk : pick (h.toGraph.subtree r) h.nextDict d with
    | none => rfl
    | some y =>
      exfalso
      rw [pick_some (Graph.nodup_subtree s r)] at hpk
      have hy := s.mem_subtree.mp hpk.1
      refine hd _ (raw_anc s hy) ?_
      rw [raw_iop_new s hy]
      exact hpk.2
  · intro t
    rw [hroot]
    show lookup (H.dicts h.nextDict) t = lookup ((h.rawCopy r).dicts h.nextDict) t
    rw [k.own t, hd0, raw_dict_self, hbase, lookup_copy (w.dict r hr hp)]
  · intro _
    rw [hroot]
    exact k.wf (by rw [hd0]; exact w.dict r hr hp)

/-- Loading a pickled root makes a separate hierarchy that is equal to the original. -/
theorem load_copied {h : Heap T} {refs : Id → List Id} (w : WF h) (hrefs : h.Refs refs) {x : Id}
    (hx : x < h.next) (hp : h.parent x = none) :
    ∃ H, h.load refs x = some (H, h.next) ∧ Copied h H x := by
  have s := w.skel
  have hh : h.toGraph.highest x = x := s.highest_eq hp .refl
  obtain ⟨l, ho, hm, hrd⟩ := order_root s hrefs hp
  obtain ⟨b', hb⟩ := buildAll_ready (r := x) (l ++ [x]) (h.rawLoad x) [] hrd
  refine ⟨h.connectAll x (h.rawLoad x) (l ++ [x]), ?_, ?_⟩
  · unfold load
    simp only
    rw [hh, ho, hb, copyOf_self]
    rfl
  · have hkl : ∀ y ∈ l, Anc h.toGraph x y := fun y hy => (hm y).mp (by simp [hy])
    unfold connectAll
    rw [List.foldl_append, List.foldl_cons, List.foldl_nil]
    have k := connectAll_kept s hx l (h.rawLoad x) hkl (rawLoad_kept s)
    cases hl : h.leaf x with
    | false =>
      rw [if_neg (by simp)]
      exact copied_of_settled s hx (k.settled w hx hp) hl
    | true =>
      rw [if_pos rfl]
      have hkx : ∀ y, Anc h.toGraph x y → y = x := fun y hy => subtree_leaf s hl hy
      have k : Kept (h.rawLoad x) (l.foldl (fun H y => if h.leaf y then H else H.reconnect (h.copyOf x y))
          (h.rawLoad x)) h.nextDict (h.copyOf x x) := k
      have hsame : l.foldl (fun H y => if h.leaf y then H else H.reconnect (h.copyOf x y))
          (h.rawLoad x) = h.rawLoad x := by
        have : ∀ L : List Id, (∀ y ∈ L, y = x) →
            L.foldl (fun H y => if h.leaf y then H else H.reconnect (h.copyOf x y))
              (h.rawLoad x) = h.rawLoad x := by
          intro L
          induction L with
          | nil => intro _; rfl
          | cons y L ih =>
            intro hL
            rw [List.foldl_cons, hL y (by simp), if_pos hl]
            exact ih (fun z hz => hL z (by simp [hz]))
        exact this l (fun y hy => hkx y (hkl y hy))
      rw [hsame]
      have hbase := (w.root x hx hp).1
      have hroot : (h.rawLoad x).iop (h.copyOf x x) = (h.nextDict, .base) := by
        rw [load_iop_new s .refl, hbase]
      have hd0 : (h.rawLoad x).dicts h.nextDict = h.dicts (h.iop x).1 := if_pos rfl
      refine ⟨rfl, rfl, fun i hi => lift_old _ _ hi, fun i hi => lift_old _ _ hi,
        fun i hi => lift_old _ _ hi, fun i hi => lift_old _ _ hi,
        fun d hd => if_neg (by omega), hroot,
        ?_, ?_, ?_, ?_, ?_, ?_, fun y hy => lift_new s _ _ hy⟩
      · intro t; rw [hd0, hbase, lookup_copy (w.dict x hx hp)]
      · rw [hd0]; exact w.dict x hx hp
      · intro y n ha hne
        exact absurd (hkx y (ha.anc s)) hne
      · intro h'; rw [hl] at h'; cases h'
      · intro h'; rw [hl] at h'; cases h'
      · intro _; exact lift_new s _ _ .refl

end Heap

end Paramz.Hier

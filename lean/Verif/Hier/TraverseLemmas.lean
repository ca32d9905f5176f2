import Verif.Hier.Traverse
import Verif.Hier.Lemmas

/-!
# What `traverse` and `traverse_parents` visit
-/

namespace Paramz.Hier

/-- Specification of calling `visit` on a list of objects one after the other until it raises. -/
def visitAll (bad : List Id → Id → Bool) : List Id → List Id → List Id × Bool
  | tr, [] => (tr, false)
  | tr, y :: L => if bad tr y then (tr ++ [y], true) else visitAll bad (tr ++ [y]) L

theorem visitAll_append (bad : List Id → Id → Bool) (L M : List Id) (tr : List Id) :
    visitAll bad tr (L ++ M) =
      if (visitAll bad tr L).2 then visitAll bad tr L else visitAll bad (visitAll bad tr L).1 M := by
  induction L generalizing tr with
  | nil => simp [visitAll]
  | cons y L ih =>
    simp only [List.cons_append, visitAll]
    split
    · simp
    · exact ih _

/-- A visit function that never raises is called on the whole list. -/
theorem visitAll_all {bad : List Id → Id → Bool} (h : ∀ tr y, bad tr y = false) (L tr : List Id) :
    visitAll bad tr L = (tr ++ L, false) := by
  induction L generalizing tr with
  | nil => simp [visitAll]
  | cons y L ih => simp [visitAll, h, ih]

/-- With a test that does not depend on earlier calls, `visitAll` raises iff the test fires. -/
theorem visitAll_raised (b : Id → Bool) (L tr : List Id) :
    (visitAll (fun _ y => b y) tr L).2 = L.any b := by
  induction L generalizing tr with
  | nil => simp [visitAll]
  | cons y L ih =>
    simp only [visitAll, List.any_cons]
    split
    · rename_i h; simp [h]
    · rename_i h; simp [h, ih]

namespace Graph

variable {g : Graph}

/-- The objects `_traverse` reaches from `x` if those with a mark are skipped. -/
def prunedF : Nat → Graph → (Id → Bool) → Id → List Id
  | 0, _, _, _ => []
  | n + 1, g, M, x => if M x then [] else x :: (g.kids x).flatMap (prunedF n g M)

theorem prunedF_anc (s : Skel g) (M : Id → Bool) : ∀ n x y, y ∈ prunedF n g M x → Anc g x y
  | 0, _, _, h => by simp [prunedF] at h
  | n + 1, x, y, h => by
    unfold prunedF at h
    split at h
    · simp at h
    · rw [List.mem_cons, List.mem_flatMap] at h
      rcases h with rfl | ⟨c, hc, hy⟩
      · exact .refl
      · exact (Anc.of_parent ((s.mem_iff _ _).mp hc)).trans (prunedF_anc s M n c y hy)

theorem prunedF_congr (s : Skel g) {M M' : Id → Bool} : ∀ n x, (∀ y, Anc g x y → M' y = M y) →
    prunedF n g M' x = prunedF n g M x
  | 0, _, _ => rfl
  | n + 1, x, h => by
    unfold prunedF
    rw [h x .refl]
    have : (g.kids x).flatMap (prunedF n g M') = (g.kids x).flatMap (prunedF n g M) := by
      apply List.flatMap_congr
      intro c hc
      exact prunedF_congr s n c (fun y hy =>
        h y ((Anc.of_parent ((s.mem_iff _ _).mp hc)).trans hy))
    rw [this]

theorem upd_upd_self {M : Id → Bool} {x : Id} (h : M x = false) :
    upd (upd M x true) x false = M := by
  funext y
  by_cases hy : y = x
  · subst hy; simp [h]
  · simp [upd, hy]

/-- `traverse` calls `visit` on the unmarked objects below in preorder until it raises; if it does not
raise, all marks are as before. -/
theorem traverseF_spec (s : Skel g) (bad : List Id → Id → Bool) : ∀ (n : Nat) (t : Trav) (x : Id),
    t.raised = false →
    ((traverseF n g bad t x).trace, (traverseF n g bad t x).raised) =
      visitAll bad t.trace (prunedF n g t.marks x) ∧
    ((traverseF n g bad t x).raised = false → (traverseF n g bad t x).marks = t.marks)
  | 0, t, x, h => by simp [traverseF, prunedF, visitAll, h]
  | n + 1, t, x, h => by
    have stay : ∀ (L : List Id) (t : Trav), t.raised = true →
        L.foldl (fun s c => traverseF n g bad s c) t = t := by
      intro L
      induction L with
      | nil => intro t _; rfl
      | cons c L ih =>
        intro t ht
        have : traverseF n g bad t c = t := by cases n <;> simp [traverseF, ht]
        rw [List.foldl_cons, this, ih t ht]
    have fold : ∀ (L : List Id) (t : Trav), t.raised = false →
        ((L.foldl (fun s c => traverseF n g bad s c) t).trace,
          (L.foldl (fun s c => traverseF n g bad s c) t).raised) =
          visitAll bad t.trace (L.flatMap (prunedF n g t.marks)) ∧
        ((L.foldl (fun s c => traverseF n g bad s c) t).raised = false →
          (L.foldl (fun s c => traverseF n g bad s c) t).marks = t.marks) := by
      intro L
      induction L with
      | nil => intro t ht; simp [visitAll, ht]
      | cons c L ih =>
        intro t ht
        obtain ⟨h1, h2⟩ := traverseF_spec s bad n t c ht
        rw [List.foldl_cons, List.flatMap_cons, visitAll_append, ← h1]
        cases hr : (traverseF n g bad t c).raised with
        | true => rw [stay L _ hr]; simp [hr]
        | false =>
          obtain ⟨h3, h4⟩ := ih _ hr
          rw [h2 hr] at h3 h4
          simp only [Bool.false_eq_true, if_false]
          exact ⟨h3, h4⟩
    unfold traverseF prunedF
    rw [if_neg (by simp [h])]
    cases hm : t.marks x with
    | true => simp [visitAll, h]
    | false =>
      simp only [Bool.false_eq_true, if_false, visitAll]
      cases hb : bad t.trace x with
      | true => simp
      | false =>
        simp only [Bool.false_eq_true, if_false]
        obtain ⟨h1, h2⟩ := fold (g.kids x)
          { t with trace := t.trace ++ [x], marks := upd t.marks x true } h
        have hp : (g.kids x).flatMap (prunedF n g (upd t.marks x true)) =
            (g.kids x).flatMap (prunedF n g t.marks) := by
          apply List.flatMap_congr
          intro c hc
          apply prunedF_congr s
          intro y hy
          have : y ≠ x := by
            rintro rfl
            exact s.not_anc_parent ((s.mem_iff _ _).mp hc) hy
          exact upd_ne _ _ this
        simp only [hp] at h1
        cases hr : ((g.kids x).foldl (fun s c => traverseF n g bad s c)
          { t with trace := t.trace ++ [x], marks := upd t.marks x true }).raised with
        | true =>
          rw [hr] at h1
          simp only [if_true]
          refine ⟨?_, fun h => ?_⟩
          · rw [hr]; exact h1
          · rw [hr] at h; cases h
        | false =>
          rw [hr] at h1
          simp only [Bool.false_eq_true, if_false]
          refine ⟨h1, fun _ => ?_⟩
          rw [h2 hr]; exact upd_upd_self hm

/-- What lies below `x` and is not cut off by a mark. -/
theorem mem_prunedF (s : Skel g) {d : Id → Nat} (hd : ∀ c p, g.parent c = some p → d p < d c)
    (hb : ∀ x, d x ≤ g.next) (M : Id → Bool) : ∀ (N : Nat) (x : Id), g.next < N + d x → ∀ y,
    (y ∈ prunedF N g M x ↔ Anc g x y ∧ ∀ z, Anc g x z → Anc g z y → M z = false)
  | 0, x, h, _ => absurd (hb x) (by omega)
  | N + 1, x, h, y => by
    unfold prunedF
    cases hm : M x with
    | true =>
      simp only [if_true, List.not_mem_nil, false_iff, not_and]
      intro h1 h2
      have := h2 x .refl h1
      rw [hm] at this; cases this
    | false =>
      simp only [Bool.false_eq_true, if_false, List.mem_cons, List.mem_flatMap]
      constructor
      · rintro (rfl | ⟨c, hc, hy⟩)
        · refine ⟨.refl, fun z h1 h2 => ?_⟩
          rw [s.anc_antisymm h2 h1]; exact hm
        · have hp := (s.mem_iff _ _).mp hc
          have := hd _ _ hp
          obtain ⟨h1, h2⟩ := (mem_prunedF s hd hb M N c (by omega) y).mp hy
          refine ⟨(Anc.of_parent hp).trans h1, fun z hz hzy => ?_⟩
          rcases hzy.total h1 with h3 | h3
          · rcases (anc_iff_of_parent hp).mp h3 with rfl | h4
            · exact h2 z .refl h1
            · rw [← s.anc_antisymm hz h4]; exact hm
          · exact h2 z h3 hzy
      · rintro ⟨h1, h2⟩
        by_cases hyx : y = x
        · exact .inl hyx
        · obtain ⟨e, A, B, hk, he⟩ := Ins.child_above s h1 (Ne.symm hyx)
          have hp := s.parent_of hk
          have := hd _ _ hp
          refine .inr ⟨e, (s.mem_iff _ _).mpr hp, ?_⟩
          rw [mem_prunedF s hd hb M N e (by omega) y]
          exact ⟨he, fun z hz hzy => h2 z ((Anc.of_parent hp).trans hz) hzy⟩

theorem nodup_prunedF (s : Skel g) (M : Id → Bool) : ∀ N x, (prunedF N g M x).Nodup
  | 0, _ => by simp [prunedF]
  | N + 1, x => by
    unfold prunedF
    split
    · simp
    · rw [List.nodup_cons, List.mem_flatMap]
      constructor
      · rintro ⟨c, hc, hx⟩
        exact s.not_anc_parent ((s.mem_iff _ _).mp hc) (prunedF_anc s M N c x hx)
      · rw [List.nodup_flatMap]
        refine ⟨fun c _ => nodup_prunedF s M N c, ?_⟩
        have hn := s.nodup x
        refine hn.imp_of_mem ?_
        intro a b ha hb hne y hya hyb
        have h1 := prunedF_anc s M N a y hya
        have h2 := prunedF_anc s M N b y hyb
        have hpa := (s.mem_iff _ _).mp ha
        have hpb := (s.mem_iff _ _).mp hb
        rcases h1.total h2 with h3 | h3
        · rcases (anc_iff_of_parent hpb).mp h3 with h4 | h4
          · exact hne h4
          · exact s.not_anc_parent hpa h4
        · rcases (anc_iff_of_parent hpa).mp h3 with h4 | h4
          · exact hne h4.symm
          · exact s.not_anc_parent hpb h4

/-- Everything `traverse_parents` reaches from `x`. -/
def outsideF : Nat → Graph → (Id → Bool) → Id → List Id
  | 0, _, _, _ => []
  | n + 1, g, M, x => match g.parent x with
    | none => []
    | some p => outsideF n g (upd M x true) p ++ prunedF g.fuel g (upd M x true) p

/-- `traverse_parents` calls `visit` on the objects of `outsideF` in order until it raises; if it does
not raise, all marks are as before. -/
theorem traverseParentsF_spec (s : Skel g) (bad : List Id → Id → Bool) :
    ∀ (n : Nat) (t : Trav) (x : Id), t.raised = false → (∀ y, Anc g y x → t.marks y = false) →
    ((traverseParentsF n g bad t x).trace, (traverseParentsF n g bad t x).raised) =
      visitAll bad t.trace (outsideF n g t.marks x) ∧
    ((traverseParentsF n g bad t x).raised = false → (traverseParentsF n g bad t x).marks = t.marks)
  | 0, t, x, h, _ => by simp [traverseParentsF, outsideF, visitAll, h]
  | n + 1, t, x, h, hm => by
    unfold traverseParentsF outsideF
    cases hp : g.parent x with
    | none => simp [visitAll, h]
    | some p =>
      simp only
      have hmp : ∀ y, Anc g y p → upd t.marks x true y = false := by
        intro y hy
        have hne : y ≠ x := by
          rintro rfl; exact s.not_anc_parent hp hy
        rw [upd_ne _ _ hne]
        exact hm y (hy.step hp)
      obtain ⟨h1, h2⟩ := traverseParentsF_spec s bad n
        { t with marks := upd t.marks x true } p h hmp
      simp only at h1 h2
      set s2 := traverseParentsF n g bad { t with marks := upd t.marks x true } p with hs2
      rw [visitAll_append, ← h1]
      cases hr : s2.raised with
      | true =>
        have : g.traverse bad s2 p = s2 := by
          unfold traverse fuel traverseF; simp [hr]
        simp [this, hr]
      | false =>
        obtain ⟨h3, h4⟩ := traverseF_spec s bad g.fuel s2 p hr
        rw [h2 hr] at h3 h4
        simp only [Bool.false_eq_true, if_false]
        have he : g.traverse bad s2 p = traverseF g.fuel g bad s2 p := rfl
        cases hr3 : (g.traverse bad s2 p).raised with
        | true =>
          simp only [if_true]
          rw [he] at hr3 ⊢
          exact ⟨h3, fun h => by rw [hr3] at h; cases h⟩
        | false =>
          simp only [Bool.false_eq_true, if_false]
          rw [he] at hr3 ⊢
          rw [hr3] at h3
          refine ⟨h3, fun _ => ?_⟩
          rw [h4 hr3]; exact upd_upd_self (hm x .refl)

theorem outsideF_spec (s : Skel g) {d : Id → Nat} (hd : ∀ c p, g.parent c = some p → d p < d c)
    (hb : ∀ x, d x ≤ g.next) : ∀ (n : Nat) (M : Id → Bool) (x : Id), d x < n →
    (∀ y, M y = true → Anc g x y ∧ y ≠ x) →
    (outsideF n g M x).Nodup ∧
    ∀ y, (y ∈ outsideF n g M x ↔ (∃ r, Anc g r x ∧ Anc g r y) ∧ ¬ Anc g x y)
  | 0, _, _, h, _ => absurd h (by omega)
  | n + 1, M, x, h, hM => by
    unfold outsideF
    cases hp : g.parent x with
    | none =>
      refine ⟨by simp, fun y => ?_⟩
      simp only [List.not_mem_nil, false_iff, not_and, not_not]
      rintro ⟨r, h1, h2⟩
      rwa [(anc_root hp).mp h1] at h2
    | some p =>
      simp only
      have hlt := hd _ _ hp
      obtain ⟨n1, h1⟩ := outsideF_spec s hd hb n (upd M x true) p (by omega) (by
        intro y hy
        by_cases hyx : y = x
        · subst hyx
          refine ⟨.of_parent hp, ?_⟩
          rintro rfl
          exact s.not_anc_parent hp .refl
        · rw [upd_ne _ _ hyx] at hy
          refine ⟨(Anc.of_parent hp).trans (hM y hy).1, ?_⟩
          rintro rfl
          exact s.not_anc_parent hp (hM _ hy).1)
      have h2 : ∀ y, y ∈ prunedF g.fuel g (upd M x true) p ↔ Anc g p y ∧ ¬ Anc g x y := by
        intro y
        rw [mem_prunedF s hd hb _ g.fuel p (by unfold fuel; omega)]
        refine and_congr_right (fun hy => ⟨fun h3 h4 => ?_, fun h3 z h4 h5 => ?_⟩)
        · have := h3 x (.of_parent hp) h4
          rw [upd_same] at this; cases this
        · have hzx : z ≠ x := by rintro rfl; exact h3 h5
          rw [upd_ne _ _ hzx]
          by_contra hne
          have := (hM z (by simpa using hne)).1
          exact h3 (this.trans h5)
      refine ⟨?_, fun y => ?_⟩
      · rw [List.nodup_append]
        refine ⟨n1, nodup_prunedF s _ _ _, ?_⟩
        rintro a ha b hb' rfl
        exact ((h1 a).mp ha).2 ((h2 a).mp hb').1
      · rw [List.mem_append, h1, h2]
        constructor
        · rintro (⟨⟨r, h3, h4⟩, h5⟩ | ⟨h3, h4⟩)
          · exact ⟨⟨r, h3.step hp, h4⟩, fun h6 => h5 ((Anc.of_parent hp).trans h6)⟩
          · exact ⟨⟨p, .of_parent hp, h3⟩, h4⟩
        · rintro ⟨⟨r, h3, h4⟩, h5⟩
          by_cases h6 : Anc g p y
          · exact .inr ⟨h6, h5⟩
          · refine .inl ⟨⟨r, ?_, h4⟩, h6⟩
            rcases (anc_iff_of_parent hp).mp h3 with rfl | h7
            · exact absurd h4 h5
            · exact h7

/-- Without marks `traverse` reaches the whole subtree. -/
theorem prunedF_nomarks : ∀ n x, prunedF n g (fun _ => false) x = subtreeF n g x
  | 0, _ => rfl
  | n + 1, x => by
    unfold prunedF subtreeF
    simp only [Bool.false_eq_true, if_false]
    congr 1
    apply List.flatMap_congr
    intro c _
    exact prunedF_nomarks n c

/-- Enough fuel is enough. -/
theorem subtreeF_fuel (s : Skel g) {d : Id → Nat} (hd : ∀ c p, g.parent c = some p → d p < d c)
    (hb : ∀ x, d x ≤ g.next) : ∀ n m x, g.next < n + d x → g.next < m + d x →
    subtreeF n g x = subtreeF m g x
  | 0, _, x, h, _ => absurd (hb x) (by omega)
  | _, 0, x, _, h => absurd (hb x) (by omega)
  | n + 1, m + 1, x, h1, h2 => by
    unfold subtreeF
    congr 1
    apply List.flatMap_congr
    intro c hc
    have := hd _ _ ((s.mem_iff _ _).mp hc)
    exact subtreeF_fuel s hd hb n m c (by omega) (by omega)

/-- Preorder: the object itself, then its children's subtrees in order. -/
theorem Skel.subtree_eq (s : Skel g) (x : Id) :
    g.subtree x = x :: (g.kids x).flatMap g.subtree := by
  obtain ⟨d, hd, hb⟩ := s.rank
  have h1 : g.subtree x = x :: (g.kids x).flatMap (subtreeF g.next g) := by
    unfold subtree fuel subtreeF; rfl
  rw [h1]
  congr 1
  apply List.flatMap_congr
  intro c hc
  have := hd _ _ ((s.mem_iff _ _).mp hc)
  exact subtreeF_fuel s hd hb _ _ c (by omega) (by unfold fuel; omega)

end Graph

end Paramz.Hier

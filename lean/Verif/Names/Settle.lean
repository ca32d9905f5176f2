import Verif.Names.Lemmas

/-!
# The renaming loop
-/

namespace Paramz.Names

/-! ### The names it ends with -/

/-- How often a name has to be incremented until it is free. -/
def count (F : List Name) (n : Name) : Nat := Nat.find (exists_free F n)

def pick (F : List Name) (n : Name) : Name := nextName^[count F n] n

/-- Names given out in order. -/
def settle (F : List Name) : List Name → List Name
  | [] => []
  | n :: ns => pick F n :: settle (F ++ [pick F n]) ns

/-- How many increments this takes. -/
def cost (F : List Name) : List Name → Nat
  | [] => 0
  | n :: ns => count F n + cost (F ++ [pick F n]) ns

theorem pick_not_mem (F : List Name) (n : Name) : pick F n ∉ F := Nat.find_spec (exists_free F n)

theorem count_zero {F : List Name} {n : Name} : count F n = 0 ↔ n ∉ F := by
  unfold count
  rw [Nat.find_eq_zero]
  rfl

theorem pick_free {F : List Name} {n : Name} (h : n ∉ F) : pick F n = n := by
  unfold pick; rw [count_zero.mpr h]; rfl

theorem count_taken {F : List Name} {n : Name} (h : n ∈ F) : count F n = count F (nextName n) + 1 := by
  unfold count
  rw [Nat.find_eq_iff]
  constructor
  · rw [Function.iterate_succ_apply]
    exact Nat.find_spec (exists_free F (nextName n))
  · intro m hm
    cases m with
    | zero => rw [Function.iterate_zero_apply]; exact not_not_intro h
    | succ m =>
      rw [Function.iterate_succ_apply]
      exact Nat.find_min (exists_free F (nextName n)) (by omega)

theorem pick_taken {F : List Name} {n : Name} (h : n ∈ F) : pick F n = pick F (nextName n) := by
  unfold pick
  rw [count_taken h, Function.iterate_succ_apply]

/-- Incrementing a name that is taken does not change the result. -/
theorem settle_step {a : Name} {C : List Name} : ∀ {F B : List Name}, a ∈ F →
    settle F (B ++ a :: C) = settle F (B ++ nextName a :: C) ∧
    cost F (B ++ a :: C) = cost F (B ++ nextName a :: C) + 1
  | F, [], h => by
    simp only [List.nil_append, settle, cost]
    rw [pick_taken h, count_taken h]
    exact ⟨rfl, by omega⟩
  | F, b :: B, h => by
    obtain ⟨h1, h2⟩ := settle_step (C := C) (F := F ++ [pick F b]) (B := B) (List.mem_append_left _ h)
    simp only [List.cons_append, settle, cost]
    rw [h1, h2]
    exact ⟨rfl, by omega⟩

/-- Names that do not clash are kept. -/
theorem settle_prefix {R : List Name} : ∀ {F A : List Name}, A.Nodup → (∀ a ∈ A, a ∉ F) →
    settle F (A ++ R) = A ++ settle (F ++ A) R ∧ cost F (A ++ R) = cost (F ++ A) R
  | F, [], _, _ => by simp
  | F, a :: A, hn, hd => by
    rw [List.nodup_cons] at hn
    have ha := hd a List.mem_cons_self
    obtain ⟨h1, h2⟩ := settle_prefix (R := R) (F := F ++ [a]) (A := A) hn.2 (fun b hb => by
      rw [List.mem_append, List.mem_singleton]
      rintro (h | rfl)
      · exact hd b (List.mem_cons_of_mem _ hb) h
      · exact hn.1 hb)
    simp only [List.cons_append, settle, cost]
    rw [pick_free ha, count_zero.mpr ha, h1, h2]
    simp

theorem settle_nodup {A : List Name} (h : A.Nodup) : settle [] A = A ∧ cost [] A = 0 := by
  obtain ⟨h1, h2⟩ := settle_prefix (R := []) (F := []) h (fun _ _ => by simp)
  simp only [List.append_nil, settle, cost] at h1 h2
  exact ⟨h1, h2⟩

theorem settle_length : ∀ (F ns : List Name), (settle F ns).length = ns.length
  | _, [] => rfl
  | F, n :: ns => by simp only [settle, List.length_cons]; rw [settle_length]

theorem settle_spec : ∀ (F ns : List Name) (i : Nat) (n f : Name), ns[i]? = some n →
    (settle F ns)[i]? = some f → f ∉ F ++ (settle F ns).take i ∧
      ∃ k, f = nextName^[k] n ∧ ∀ j, j < k → nextName^[j] n ∈ F ++ (settle F ns).take i
  | _, [], i, n, f, h, _ => by simp at h
  | F, m :: ns, 0, n, f, h1, h2 => by
    simp only [settle, List.getElem?_cons_zero, Option.some.injEq] at h1 h2
    subst h1 h2
    simp only [List.take_zero, List.append_nil]
    refine ⟨pick_not_mem F m, count F m, rfl, fun j hj => ?_⟩
    exact not_not.mp (Nat.find_min (exists_free F m) hj)
  | F, m :: ns, i + 1, n, f, h1, h2 => by
    simp only [settle, List.getElem?_cons_succ] at h1 h2
    have := settle_spec (F ++ [pick F m]) ns i n f h1 h2
    simp only [settle, List.take_succ_cons]
    rwa [List.append_assoc] at this

theorem settle_settled (ns : List Name) : Settled ns (settle [] ns) :=
  ⟨settle_length _ _, fun i n f h1 h2 => by
    have := settle_spec [] ns i n f h1 h2
    simpa using this⟩

theorem Settled.nodup {ns fs : List Name} (h : Settled ns fs) : fs.Nodup := by
  unfold List.Nodup
  rw [List.pairwise_iff_getElem]
  intro i j hi hj hij heq
  have hjn : j < ns.length := h.1 ▸ hj
  have := (h.2 j ns[j] fs[j] (List.getElem?_eq_getElem hjn) (List.getElem?_eq_getElem hj)).1
  apply this
  rw [List.mem_take_iff_getElem]
  exact ⟨i, by omega, heq⟩

/-! ### Clashes -/

/-- What the loop needs: no object twice, all names acceptable. -/
structure WF (s : Fam) : Prop where
  nodup : s.kids.Nodup
  good : ∀ x ∈ s.kids, Good (s.name x)

theorem other_none {s : Fam} {x : Id} :
    s.other x = none ↔ ∀ o ∈ s.kids, s.name o = s.name x → o = x := by
  unfold Fam.other
  rw [List.find?_eq_none]
  simp only [decide_eq_true_eq, not_and]
  constructor
  · intro h o ho he
    by_contra hne
    exact h o ho hne he
  · intro h o ho hne he
    exact hne (h o ho he)

theorem names_nodup {s : Fam} (hn : s.kids.Nodup) : s.names.Nodup ↔ ∀ x ∈ s.kids, s.other x = none := by
  unfold Fam.names
  constructor
  · intro h x hx
    rw [other_none]
    intro o ho he
    exact List.inj_on_of_nodup_map h ho hx he
  · intro h
    exact List.Nodup.map_on (fun x hx y hy he => (other_none.mp (h y hy)) x hx he) hn

theorem exists_first {p : Id → Prop} : ∀ {l : List Id}, (∃ x ∈ l, p x) →
    ∃ A x R, l = A ++ x :: R ∧ (∀ a ∈ A, ¬ p a) ∧ p x
  | [], h => by obtain ⟨x, hx, -⟩ := h; simp at hx
  | y :: l, h => by
    by_cases hy : p y
    · exact ⟨[], y, l, rfl, by simp, hy⟩
    · obtain ⟨x, hx, hp⟩ := h
      have hx : x ∈ l := by
        rcases List.mem_cons.mp hx with rfl | hx
        · exact absurd hp hy
        · exact hx
      obtain ⟨A, z, R, rfl, h1, h2⟩ := exists_first ⟨x, hx, hp⟩
      refine ⟨y :: A, z, R, rfl, fun a ha => ?_, h2⟩
      rcases List.mem_cons.mp ha with rfl | ha
      · exact hy
      · exact h1 a ha

/-- The first clash. -/
theorem exists_clash {s : Fam} (w : WF s) (hc : ¬ s.names.Nodup) :
    ∃ A x B o C, s.kids = A ++ x :: (B ++ o :: C) ∧ (∀ a ∈ A, s.other a = none) ∧ s.other x = some o ∧
      s.name o = s.name x := by
  rw [names_nodup w.nodup] at hc
  push Not at hc
  obtain ⟨x, hx, hne⟩ := hc
  obtain ⟨A, x, R, hk, hA, hx⟩ := exists_first (p := fun x => s.other x ≠ none) ⟨x, hx, hne⟩
  obtain ⟨o, ho⟩ := Option.ne_none_iff_exists'.mp hx
  have ho' := ho
  unfold Fam.other at ho'
  have h1 := List.find?_some ho'
  have h2 := List.mem_of_find?_eq_some ho'
  simp only [decide_eq_true_eq] at h1
  have hoR : o ∈ R := by
    rw [hk, List.mem_append, List.mem_cons] at h2
    rcases h2 with h2 | h2 | h2
    · have := other_none.mp (not_not.mp (hA o h2)) x (by rw [hk]; simp) h1.2.symm
      exact absurd this.symm h1.1
    · exact absurd h2 h1.1
    · exact h2
  obtain ⟨B, C, rfl⟩ := List.append_of_mem hoR
  exact ⟨A, x, B, o, C, hk, fun a ha => not_not.mp (hA a ha), ho, h1.2⟩

/-! ### The loop -/

/-- What has changed when the loop is done. -/
structure Done (s s' : Fam) : Prop where
  kids : s'.kids = s.kids
  own : s'.own = s.own
  names : s'.names = settle [] s.names
  outside : ∀ y, y ∉ s.kids → s'.name y = s.name y
  sound : s.Sound → s'.Sound
  complete : s'.Complete

/-- Only attributes are added. -/
structure Ext (s s' : Fam) : Prop where
  kids : s'.kids = s.kids
  name : s'.name = s.name
  own : s'.own = s.own
  attrs : ∀ n, (s.attrs n).isSome = true → (s'.attrs n).isSome = true
  sound : s.Sound → s'.Sound

theorem Ext.refl (s : Fam) : Ext s s := ⟨rfl, rfl, rfl, fun _ h => h, fun h => h⟩

theorem Ext.trans {s s' s'' : Fam} (a : Ext s s') (b : Ext s' s'') : Ext s s'' :=
  ⟨b.1.trans a.1, b.2.trans a.2, b.3.trans a.3, fun n h => b.4 n (a.4 n h), fun h => b.5 (a.5 h)⟩

theorem Ext.other {s s' : Fam} (e : Ext s s') (x : Id) : s'.other x = s.other x := by
  unfold Fam.other; rw [e.kids, e.name]

theorem Ext.names {s s' : Fam} (e : Ext s s') : s'.names = s.names := by
  unfold Fam.names; rw [e.kids, e.name]

theorem Ext.wf {s s' : Fam} (e : Ext s s') (w : WF s) : WF s' :=
  ⟨e.kids ▸ w.nodup, fun x hx => by rw [e.name]; exact w.good x (e.kids ▸ hx)⟩

/-- Adding a parameter without a clash. -/
theorem setAttr_ext {s : Fam} {x : Id} {n : Name} (hx : x ∈ s.kids) (hn : adjust (s.name x) = some n) :
    Ext s (s.setAttr n x) ∧ ((s.setAttr n x).own n = true ∨ ((s.setAttr n x).attrs n).isSome = true) := by
  unfold Fam.setAttr
  split
  · rename_i h
    refine ⟨.refl s, ?_⟩
    rw [Bool.or_eq_true] at h; exact h
  · refine ⟨⟨rfl, rfl, rfl, fun m hm => ?_, fun hs m z hz => ?_⟩, .inr (by simp)⟩
    · show (if m = n then some x else s.attrs m).isSome = true
      split
      · rfl
      · exact hm
    · have hz : (if m = n then some x else s.attrs m) = some z := hz
      split at hz
      · rename_i e
        cases hz
        rw [e]; exact ⟨hx, hn⟩
      · exact hs m z hz

theorem go_add {s : Fam} (w : WF s) {n : Nat} {x : Id} (hx : x ∈ s.kids) (ho : s.other x = none) :
    ∃ s', go (n + 1) s (some x) = .ok s' ∧ Ext s s' ∧
      ∀ m, adjust (s.name x) = some m → s'.own m = true ∨ (s'.attrs m).isSome = true := by
  obtain ⟨p, hp⟩ := Option.isSome_iff_exists.mp (w.good x hx).1
  refine ⟨s.setAttr p x, ?_, (setAttr_ext hx hp).1, fun m hm => ?_⟩
  · simp only [go, hp, ho]
  · rw [hp] at hm
    cases hm
    exact (setAttr_ext hx hp).2

/-- Going through parameters without clashes. -/
theorem go_fold {n : Nat} : ∀ {L : List Id} {s : Fam}, WF s → (∀ x ∈ L, x ∈ s.kids ∧ s.other x = none) →
    ∃ s', L.foldlM (fun s x => go (n + 1) s (some x)) s = .ok s' ∧ Ext s s' ∧
      ∀ x ∈ L, ∀ m, adjust (s.name x) = some m → s'.own m = true ∨ (s'.attrs m).isSome = true
  | [], s, _, _ => ⟨s, rfl, .refl s, by simp⟩
  | x :: L, s, w, h => by
    obtain ⟨s1, h1, e1, c1⟩ := go_add (n := n) w (h x List.mem_cons_self).1 (h x List.mem_cons_self).2
    obtain ⟨s2, h2, e2, c2⟩ := go_fold (n := n) (L := L) (s := s1) (e1.wf w) (fun y hy => by
      rw [e1.other, e1.kids]
      exact h y (List.mem_cons_of_mem _ hy))
    refine ⟨s2, ?_, e1.trans e2, fun y hy m hm => ?_⟩
    · rw [List.foldlM_cons, h1]; exact h2
    · rcases List.mem_cons.mp hy with rfl | hy
      · rcases c1 m hm with h3 | h3
        · left; rw [e2.own]; exact h3
        · exact .inr (e2.attrs m h3)
      · exact c2 y hy m (by rw [e1.name]; exact hm)

theorem foldlM_split {f : Fam → Id → Except Err Fam} {A R : List Id} {x : Id} {s sA : Fam}
    (h : A.foldlM f s = .ok sA) :
    (A ++ x :: R).foldlM f s = (do let s4 ← f sA x; R.foldlM f s4) := by
  rw [List.foldlM_append, h]; rfl

/-- What happens after everything has been connected again. -/
theorem resume {n : Nat} (hn : 1 ≤ n) {s : Fam} (w : WF s) (hu : ∀ x ∈ s.kids, s.other x = none) {o : Id}
    (ho : o ∈ s.kids) {L : List Id} (hL : ∀ x ∈ L, x ∈ s.kids) :
    ∃ s', (do let s4 ← (do let s3 ← go n s (some o)
                           go n s3 (some o))
              L.foldlM (fun s x => go (n + 1) s (some x)) s4) = .ok s' ∧ Ext s s' := by
  obtain ⟨k, rfl⟩ : ∃ k, n = k + 1 := ⟨n - 1, by omega⟩
  obtain ⟨s3, g3, e3, -⟩ := go_add (n := k) w ho (hu o ho)
  obtain ⟨s4, g4, e4, -⟩ := go_add (n := k) (e3.wf w) (x := o) (by rw [e3.kids]; exact ho)
    (by rw [e3.other]; exact hu o ho)
  have e24 := e3.trans e4
  obtain ⟨s5, g5, e5, -⟩ := go_fold (n := k + 1) (L := L) (e24.wf w) (fun y hy => by
    rw [e24.kids, e24.other]
    exact ⟨hL y hy, hu y (hL y hy)⟩)
  refine ⟨s5, ?_, e24.trans e5⟩
  rw [g3]
  generalize go (k + 1) = G at *
  simp only [bind, Except.bind]
  rw [g4]
  exact g5

theorem upd_same {α : Type} (f : Id → α) (x : Id) (v : α) : upd f x v x = v := if_pos rfl

theorem upd_ne {α : Type} {f : Id → α} {x y : Id} {v : α} (h : y ≠ x) : upd f x v y = f y := if_neg h

/-- One renaming. -/
theorem step_spec {s : Fam} (w : WF s) {A B C : List Id} {x o : Id} (hk : s.kids = A ++ x :: (B ++ o :: C))
    (hA : ∀ a ∈ A, s.other a = none) (hname : s.name o = s.name x) {old : Name}
    (hold : adjust (s.name o) = some old) :
    let s1 := ({ s with name := upd s.name o (nextName (s.name o)) } : Fam).delAttr old
    WF s1 ∧ settle [] s1.names = settle [] s.names ∧ cost [] s.names = cost [] s1.names + 1 ∧
      (s.Sound → s1.Sound) := by
  intro s1
  have hn := w.nodup
  have ho : o ∈ s.kids := by rw [hk]; simp
  have hx : x ∈ s.kids := by rw [hk]; simp
  have hne : ∀ y ∈ A ++ x :: B ++ C, y ≠ o := by
    rw [hk] at hn
    have : (A ++ x :: B ++ o :: C).Nodup := by simpa using hn
    rw [List.nodup_middle] at this
    rw [List.nodup_cons] at this
    intro y hy e
    exact this.1 (e ▸ hy)
  have hmap : ∀ L : List Id, (∀ y ∈ L, y ≠ o) → L.map (upd s.name o (nextName (s.name o))) = L.map s.name := by
    intro L hL
    apply List.map_congr_left
    intro y hy
    exact upd_ne (hL y hy)
  have hA' : ∀ y ∈ A, y ≠ o := fun y hy => hne y (by simp [hy])
  have hB' : ∀ y ∈ B, y ≠ o := fun y hy => hne y (by simp [hy])
  have hC' : ∀ y ∈ C, y ≠ o := fun y hy => hne y (by simp [hy])
  have hxo : x ≠ o := hne x (by simp)
  have e0 : s.names = (A.map s.name ++ [s.name x]) ++ (B.map s.name ++ s.name x :: C.map s.name) := by
    unfold Fam.names; rw [hk]; simp [hname]
  have e1 : s1.names =
      (A.map s.name ++ [s.name x]) ++ (B.map s.name ++ nextName (s.name x) :: C.map s.name) := by
    show s.kids.map (upd s.name o (nextName (s.name o))) = _
    rw [hk]
    simp only [List.map_append, List.map_cons]
    rw [hmap A hA', hmap B hB', hmap C hC', upd_same, upd_ne hxo, hname]
    simp
  have hnd : (A.map s.name ++ [s.name x]).Nodup := by
    have h1 : (A ++ [x]).map s.name = A.map s.name ++ [s.name x] := by simp
    rw [← h1]
    refine List.Nodup.map_on ?_ ?_
    · intro y hy z hz he
      rw [List.mem_append, List.mem_singleton] at hy hz
      have hyk : y ∈ s.kids := by
        rw [hk]
        rcases hy with h | rfl
        · simp [h]
        · simp
      have hzk : z ∈ s.kids := by
        rw [hk]
        rcases hz with h | rfl
        · simp [h]
        · simp
      rcases hz with hz | rfl
      · exact other_none.mp (hA z hz) y hyk he
      · rcases hy with hy | rfl
        · exact (other_none.mp (hA y hy) z hzk he.symm).symm
        · rfl
    · rw [hk] at hn
      have : (A ++ [x] ++ (B ++ o :: C)).Nodup := by simpa using hn
      exact (List.nodup_append.mp this).1
  obtain ⟨p1, q1⟩ := settle_prefix (R := B.map s.name ++ s.name x :: C.map s.name) (F := []) hnd
    (fun _ _ => by simp)
  obtain ⟨p2, q2⟩ := settle_prefix (R := B.map s.name ++ nextName (s.name x) :: C.map s.name) (F := []) hnd
    (fun _ _ => by simp)
  obtain ⟨p3, q3⟩ := settle_step (a := s.name x) (C := C.map s.name)
    (F := [] ++ (A.map s.name ++ [s.name x])) (B := B.map s.name) (by simp)
  refine ⟨⟨hn, fun y hy => ?_⟩, ?_, ?_, ?_⟩
  · show Good (upd s.name o (nextName (s.name o)) y)
    by_cases h : y = o
    · subst h; rw [upd_same]; exact nextName_good (w.good y ho)
    · rw [upd_ne h]; exact w.good y hy
  · rw [e0, e1, p1, p2, p3]
  · rw [e0, e1, q1, q2, q3]
  · intro hs m z hz
    have hz : (if m = old then none else s.attrs m) = some z := hz
    split at hz
    · cases hz
    · rename_i hmo
      obtain ⟨h1, h2⟩ := hs m z hz
      refine ⟨h1, ?_⟩
      show adjust (upd s.name o (nextName (s.name o)) z) = some m
      by_cases h : z = o
      · subst h
        rw [hold] at h2
        cases h2
        exact absurd rfl hmo
      · rw [upd_ne h]; exact h2

/-- Connecting succeeds iff the recursion limit is large enough; then names are settled. -/
theorem go_connect : ∀ (n : Nat) (s : Fam), WF s → s.kids ≠ [] →
    (2 * cost [] s.names + 2 ≤ n → ∃ s', go n s none = .ok s' ∧ Done s s') ∧
    (n < 2 * cost [] s.names + 2 → go n s none = .error .recursionError) := by
  intro n
  induction n using Nat.strong_induction_on with
  | _ n ih =>
    intro s w hne
    match n, ih with
    | 0, _ => exact ⟨fun h => by omega, fun _ => rfl⟩
    | 1, _ =>
      refine ⟨fun h => by omega, fun _ => ?_⟩
      cases hk : s.kids with
      | nil => exact absurd hk hne
      | cons x L =>
        simp only [go, hk, List.foldlM_cons]
        rfl
    | n + 2, ih =>
      by_cases hc : s.names.Nodup
      · obtain ⟨hst, hco⟩ := settle_nodup hc
        rw [hco]
        refine ⟨fun _ => ?_, fun h => by omega⟩
        have ho := (names_nodup w.nodup).mp hc
        obtain ⟨s', h1, e, c⟩ := go_fold (n := n) (L := s.kids) w (fun x hx => ⟨hx, ho x hx⟩)
        refine ⟨s', ?_, e.kids, e.own, ?_, fun y _ => by rw [e.name], e.sound, fun x hx m hm => ?_⟩
        · show s.kids.foldlM (fun s x => go (n + 1) s (some x)) s = _
          exact h1
        · rw [hst, e.names]
        · rw [e.kids] at hx
          rw [e.name] at hm
          exact c x hx m hm
      · obtain ⟨A, x, B, o, C, hk, hA, hx, hname⟩ := exists_clash w hc
        have hxk : x ∈ s.kids := by rw [hk]; simp
        have hok : o ∈ s.kids := by rw [hk]; simp
        have hAk : ∀ a ∈ A, a ∈ s.kids := fun a ha => by rw [hk]; simp [ha]
        obtain ⟨sA, fA, eA, cA⟩ := go_fold (n := n) (L := A) w (fun a ha => ⟨hAk a ha, hA a ha⟩)
        have wA := eA.wf w
        have hkA : sA.kids = A ++ x :: (B ++ o :: C) := eA.kids.trans hk
        have hAA : ∀ a ∈ A, sA.other a = none := fun a ha => (eA.other a).trans (hA a ha)
        have hxA : sA.other x = some o := (eA.other x).trans hx
        have hnA : sA.name o = sA.name x := by rw [eA.name]; exact hname
        obtain ⟨px, hpx⟩ := Option.isSome_iff_exists.mp (wA.good x (eA.kids ▸ hxk)).1
        obtain ⟨old, hold⟩ := Option.isSome_iff_exists.mp (wA.good o (eA.kids ▸ hok)).1
        obtain ⟨w1, st1, co1, so1⟩ := step_spec wA hkA hAA hnA hold
        set s1 := ({ sA with name := upd sA.name o (nextName (sA.name o)) } : Fam).delAttr old with hs1
        have hk1 : s1.kids = s.kids := eA.kids
        rw [eA.names] at st1 co1
        have step : go (n + 1) sA (some x) =
            (do let s2 ← go n s1 none
                let s3 ← go n s2 (some o)
                go n s3 (some o)) := by
          simp only [go, hpx, hxA, hold]
          rfl
        have whole : go (n + 2) s none =
            (do let s4 ← go (n + 1) sA (some x)
                (B ++ o :: C).foldlM (fun s x => go (n + 1) s (some x)) s4) := by
          show s.kids.foldlM (fun s x => go (n + 1) s (some x)) s = _
          rw [hk]
          exact foldlM_split fA
        obtain ⟨i1, i2⟩ := ih n (by omega) s1 w1 (by rw [hk1]; exact hne)
        rw [co1]
        constructor
        · intro hle
          obtain ⟨s2, g2, d2⟩ := i1 (by omega)
          have hk2 : s2.kids = s.kids := d2.kids.trans hk1
          have hset : s2.names = settle [] s.names := d2.names.trans st1
          have hnd2 : s2.names.Nodup := by rw [hset]; exact (settle_settled _).nodup
          have w2 : WF s2 := by
            refine ⟨by rw [hk2]; exact w.nodup, fun y hy => ?_⟩
            have hmem : s2.name y ∈ settle [] s.names := by
              rw [← hset]; exact List.mem_map_of_mem hy
            obtain ⟨i, hi, hie⟩ := List.getElem_of_mem hmem
            have hi' : i < s.names.length := by rw [← settle_length [] s.names]; exact hi
            obtain ⟨-, k, hk', -⟩ := (settle_settled s.names).2 i _ _ (List.getElem?_eq_getElem hi')
              (List.getElem?_eq_getElem hi)
            rw [hie] at hk'
            rw [hk']
            have hg : Good (s.names[i]) := by
              have : s.names[i] ∈ s.names := List.getElem_mem hi'
              obtain ⟨z, hz, hze⟩ := List.mem_map.mp this
              rw [← hze]; exact w.good z hz
            clear hk' hie
            induction k with
            | zero => exact hg
            | succ k ihk => rw [Function.iterate_succ_apply']; exact nextName_good ihk
          have ho2 := (names_nodup w2.nodup).mp hnd2
          obtain ⟨s5, g5, e25⟩ := resume (n := n) (by omega) w2 ho2 (o := o) (by rw [hk2]; exact hok)
            (L := B ++ o :: C) (fun y hy => by
              rw [hk2, hk]
              exact List.mem_append_right _ (List.mem_cons_of_mem _ hy))
          refine ⟨s5, ?_, ?_⟩
          · rw [whole, step, g2]
            exact g5
          · refine ⟨e25.kids.trans hk2, ?_, e25.names.trans hset, fun y hy => ?_, fun hs => ?_, ?_⟩
            · rw [e25.own, d2.own]; exact eA.own
            · rw [e25.name, d2.outside y (by rw [hk1]; exact hy)]
              have hyo : y ≠ o := fun e => hy (e ▸ hok)
              show upd sA.name o (nextName (sA.name o)) y = _
              rw [upd_ne hyo, eA.name]
            · exact e25.sound (d2.sound (so1 (eA.sound hs)))
            · intro y hy m hm
              rw [e25.kids] at hy
              rw [e25.name] at hm
              rcases d2.complete y hy m hm with h | h
              · left; rw [e25.own]; exact h
              · exact .inr (e25.attrs m h)
        · intro hlt
          rw [whole, step, i2 (by omega)]
          rfl

end Paramz.Names

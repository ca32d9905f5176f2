import Verif.Cache.Keys
import Verif.Cache.Spec

/-! Invariant of the cacher model and its preservation. -/

set_option linter.unusedSectionVars false
set_option linter.unusedSimpArgs false

namespace Paramz.Cache

open Spec (Entry)

variable {V N E R : Type} [LinearOrder N]

/-! ### Lookup in the specified list by key -/

/-- The entry stored under a key. -/
def lk (c : List (Entry R)) (k : Key) : Option (Entry R) :=
  c.find? (fun e => decide (prepareId e.args = k))

theorem lk_key {c : List (Entry R)} {k : Key} {e : Entry R} (h : lk c k = some e) :
    prepareId e.args = k := by
  have := List.find?_some h
  simpa using this

theorem lk_mem {c : List (Entry R)} {k : Key} {e : Entry R} (h : lk c k = some e) : e ∈ c :=
  List.mem_of_find?_eq_some h

theorem lk_prepareId (c : List (Entry R)) (l : List Nat) :
    lk c (prepareId l) = c.find? (fun e => decide (e.args = l)) := by
  unfold lk
  congr 1
  funext e
  by_cases h : e.args = l
  · simp [h]
  · have : prepareId e.args ≠ prepareId l := fun h' => h (prepareId_injective _ _ h')
    simp [h, this]

theorem lk_of_mem {c : List (Entry R)} (hn : (c.map Entry.args).Nodup) {e : Entry R} (h : e ∈ c) :
    lk c (prepareId e.args) = some e := by
  rw [lk_prepareId]
  induction c with
  | nil => simp at h
  | cons x c ih =>
    simp only [List.map_cons, List.nodup_cons] at hn
    rw [List.find?_cons]
    rcases List.mem_cons.mp h with rfl | h
    · simp
    · have : x.args ≠ e.args := by
        intro hx
        exact hn.1 (hx ▸ List.mem_map.mpr ⟨e, h, rfl⟩)
      simp only [this, decide_false]
      exact ih hn.2 h

theorem lk_map (c : List (Entry R)) (f : Entry R → Entry R) (hf : ∀ e, (f e).args = e.args) (k : Key) :
    lk (c.map f) k = (lk c k).map f := by
  unfold lk
  rw [List.find?_map]
  congr 2
  funext e
  simp [hf]

theorem lk_append (c : List (Entry R)) (e : Entry R) (k : Key) :
    lk (c ++ [e]) k = (lk c k).or (if prepareId e.args = k then some e else none) := by
  unfold lk
  rw [List.find?_append]
  congr 1
  rw [List.find?_cons]
  by_cases h : prepareId e.args = k <;> simp [h]

theorem lk_none_iff (c : List (Entry R)) (k : Key) :
    lk c k = none ↔ ∀ e ∈ c, prepareId e.args ≠ k := by
  simp [lk]

theorem lk_tail {e : Entry R} {c : List (Entry R)} (hn : ((e :: c).map Entry.args).Nodup) (k : Key) :
    lk c k = if k = prepareId e.args then none else lk (e :: c) k := by
  simp only [List.map_cons, List.nodup_cons] at hn
  by_cases h : k = prepareId e.args
  · rw [if_pos h, lk_none_iff]
    intro x hx hk
    exact hn.1 (prepareId_injective _ _ (hk.trans h) ▸ List.mem_map.mpr ⟨x, hx, rfl⟩)
  · rw [if_neg h]
    simp [lk, List.find?_cons, Ne.symm h]

/-! ### The world -/

/-- Observer lists belong to one object each and are numbered below the counter. -/
structure WInv (w : World V) : Prop where
  inj : ∀ a b o p, w.cell a = some o → w.cell b = some p → o.list = p.list → a = b
  lt : ∀ a o, w.cell a = some o → o.list < w.fresh

/-- `cached_input_ids` counts the uses of each observable input; the cacher is registered exactly on
these. `I k` are the inputs stored under key `k`. -/
structure IdsInv (w : World V) (ids : Dict Nat (Ref × List Key)) (I : Key → List Nat) : Prop where
  none_ : ∀ a, dget ids a = none → ∀ k, a ∈ I k → kindAt w a ≠ .observable
  some_ : ∀ a ref ks, dget ids a = some (ref, ks) →
    (∃ o, w.cell a = some o ∧ o.kind = .observable ∧ ref = ⟨a, o.uid⟩) ∧ ks ≠ [] ∧
    ∀ k, ks.count k = (I k).count a
  reg_one : ∀ a o, (dget ids a).isSome → w.cell a = some o → w.reg o.list = 1
  reg_zero : ∀ n, w.reg n ≠ 0 → ∃ a o, w.cell a = some o ∧ o.list = n ∧ (dget ids a).isSome

theorem deref_self {w : World V} {a : Nat} {o : Obj V} (h : w.cell a = some o) :
    deref w ⟨a, o.uid⟩ = some o := by simp [deref, h]

theorem kindAt_of {w : World V} {a : Nat} {o : Obj V} (h : w.cell a = some o) :
    kindAt w a = o.kind := by simp [kindAt, h]

/-- Functions on keys updated at one key. -/
def upd (I : Key → List Nat) (k : Key) (l : List Nat) : Key → List Nat :=
  fun j => if j = k then l else I j

@[simp] theorem upd_self (I : Key → List Nat) (k : Key) (l : List Nat) : upd I k l k = l := by
  simp [upd]

theorem upd_ne (I : Key → List Nat) {j k : Key} (l : List Nat) (h : j ≠ k) : upd I k l j = I j := by
  simp [upd, h]

theorem WInv.cell_eq {w w' : World V} (h : WInv w) (hc : w'.cell = w.cell) (hf : w'.fresh = w.fresh) :
    WInv w' := ⟨by rw [hc]; exact h.inj, by rw [hc, hf]; exact h.lt⟩

/-- Releasing the inputs of one entry. -/
theorem release_ok (k : Key) (I : Key → List Nat) : ∀ (l : List Nat) (s : St V R),
    WInv s.w → IdsInv s.w s.ids (upd I k l) →
    ∃ w' ids', release (E := E) k l s = .ok { s with w := w', ids := ids' } ∧ w'.cell = s.w.cell ∧
      w'.fresh = s.w.fresh ∧ w'.dirty = s.w.dirty ∧ IdsInv w' ids' (upd I k []) := by
  intro l
  induction l with
  | nil =>
    intro s _ h
    exact ⟨s.w, s.ids, rfl, rfl, rfl, rfl, h⟩
  | cons a l ih =>
    intro s hw h
    simp only [release]
    cases hd : dget s.ids a with
    | none =>
      have h' : IdsInv s.w s.ids (upd I k l) := by
        refine ⟨?_, ?_, h.reg_one, h.reg_zero⟩
        · intro b hb j hj
          refine h.none_ b hb j ?_
          by_cases hjk : j = k
          · subst hjk; rw [upd_self] at hj ⊢; exact List.mem_cons_of_mem _ hj
          · rwa [upd_ne _ _ hjk] at hj ⊢
        · intro b ref ks hb
          obtain ⟨h1, h2, h3⟩ := h.some_ b ref ks hb
          refine ⟨h1, h2, fun j => ?_⟩
          rw [h3 j]
          by_cases hjk : j = k
          · subst hjk
            rw [upd_self, upd_self, List.count_cons]
            have : a ≠ b := by rintro rfl; rw [hd] at hb; cases hb
            simp [this]
          · rw [upd_ne _ _ hjk, upd_ne _ _ hjk]
      exact ih s hw h'
    | some v =>
      obtain ⟨ref, ks⟩ := v
      obtain ⟨⟨o, ho, hk, hr⟩, hne, hcount⟩ := h.some_ a ref ks hd
      have hkc := hcount k
      rw [upd_self, List.count_cons_self] at hkc
      have hkm : k ∈ ks := by
        rw [← List.count_pos_iff]; omega
      simp only
      by_cases hlen : ks.length = 1
      · rw [if_pos hlen, hr, deref_self ho]
        simp only
        obtain ⟨x, hx⟩ := List.length_eq_one_iff.mp hlen
        subst hx
        have hxk : x = k := (List.mem_singleton.mp hkm).symm
        subst hxk
        have hla : l.count a = 0 := by
          simp at hkc; exact hkc
        have hother : ∀ j, a ∉ upd I x l j := by
          intro j hj
          by_cases hjk : j = x
          · subst hjk
            rw [upd_self] at hj
            exact absurd (List.count_pos_iff.mpr hj) (by omega)
          · have := hcount j
            rw [upd_ne _ _ hjk] at this
            rw [upd_ne _ _ hjk] at hj
            have h0 : List.count j [x] = 0 := by simp [List.count_cons, Ne.symm hjk]
            rw [h0] at this
            exact absurd (List.count_pos_iff.mpr hj) (by omega)
        have h' : IdsInv (unregister s.w o.list) (ddel s.ids a) (upd I x l) := by
          refine ⟨?_, ?_, ?_, ?_⟩
          · intro b hb j hj
            rw [dget_ddel] at hb
            by_cases hba : b = a
            · subst hba; exact absurd hj (hother j)
            · rw [if_neg hba] at hb
              refine h.none_ b hb j ?_
              by_cases hjk : j = x
              · subst hjk; rw [upd_self] at hj ⊢; exact List.mem_cons_of_mem _ hj
              · rwa [upd_ne _ _ hjk] at hj ⊢
          · intro b ref' ks' hb
            rw [dget_ddel] at hb
            by_cases hba : b = a
            · simp [hba] at hb
            · rw [if_neg hba] at hb
              obtain ⟨h1, h2, h3⟩ := h.some_ b ref' ks' hb
              refine ⟨h1, h2, fun j => ?_⟩
              rw [h3 j]
              by_cases hjk : j = x
              · subst hjk
                rw [upd_self, upd_self, List.count_cons]
                simp [Ne.symm hba]
              · rw [upd_ne _ _ hjk, upd_ne _ _ hjk]
          · intro b p hb hp
            rw [dget_ddel] at hb
            by_cases hba : b = a
            · simp [hba] at hb
            · rw [if_neg hba] at hb
              have h1 := h.reg_one b p hb hp
              simp only [unregister]
              rw [if_neg]
              · exact h1
              · intro hl
                exact hba (hw.inj b a p o hp ho hl)
          · intro n hn
            simp only [unregister] at hn
            by_cases hnl : n = o.list
            · simp [hnl] at hn
            · rw [if_neg hnl] at hn
              obtain ⟨b, p, hb, hp, hs⟩ := h.reg_zero n hn
              refine ⟨b, p, hb, hp, ?_⟩
              rw [dget_ddel, if_neg]
              · exact hs
              · rintro rfl
                rw [ho] at hb; cases hb
                exact hnl hp.symm
        obtain ⟨w', ids', h1, h2, h3, h4, h5⟩ := ih { s with w := unregister s.w o.list, ids := ddel s.ids a }
          (hw.cell_eq rfl rfl) h'
        exact ⟨w', ids', h1, h2, h3, h4, h5⟩
      · rw [if_neg hlen]
        simp only
        rw [if_pos hkm]
        have hlen2 : ks.length ≠ 0 := by
          simpa using hne
        have h' : IdsInv s.w (dset s.ids a (ref, ks.erase k)) (upd I k l) := by
          refine ⟨?_, ?_, ?_, ?_⟩
          · intro b hb j hj
            rw [dget_dset] at hb
            by_cases hba : b = a
            · simp [hba] at hb
            · rw [if_neg hba] at hb
              refine h.none_ b hb j ?_
              by_cases hjk : j = k
              · subst hjk; rw [upd_self] at hj ⊢; exact List.mem_cons_of_mem _ hj
              · rwa [upd_ne _ _ hjk] at hj ⊢
          · intro b ref' ks' hb
            rw [dget_dset] at hb
            by_cases hba : b = a
            · subst hba
              rw [if_pos rfl] at hb
              cases hb
              refine ⟨⟨o, ho, hk, hr⟩, ?_, fun j => ?_⟩
              · intro h0
                have := List.length_erase_of_mem hkm
                rw [h0] at this
                simp at this; omega
              · by_cases hjk : j = k
                · subst hjk
                  rw [upd_self, List.count_erase_self]
                  omega
                · rw [upd_ne _ _ hjk, List.count_erase_of_ne hjk]
                  have := hcount j
                  rwa [upd_ne _ _ hjk] at this
            · rw [if_neg hba] at hb
              obtain ⟨h1, h2, h3⟩ := h.some_ b ref' ks' hb
              refine ⟨h1, h2, fun j => ?_⟩
              rw [h3 j]
              by_cases hjk : j = k
              · subst hjk
                rw [upd_self, upd_self, List.count_cons]
                simp [Ne.symm hba]
              · rw [upd_ne _ _ hjk, upd_ne _ _ hjk]
          · intro b p hb hp
            refine h.reg_one b p ?_ hp
            rw [dget_dset] at hb
            by_cases hba : b = a
            · subst hba; simp [hd]
            · rwa [if_neg hba] at hb
          · intro n hn
            obtain ⟨b, p, hb, hp, hs⟩ := h.reg_zero n hn
            refine ⟨b, p, hb, hp, ?_⟩
            rw [dget_dset]
            split
            · simp
            · exact hs
        obtain ⟨w', ids', h1, h2, h3, h4, h5⟩ :=
          ih { s with ids := dset s.ids a (ref, ks.erase k) } hw h'
        exact ⟨w', ids', h1, h2, h3, h4, h5⟩

/-- Registering on one input of a new entry. -/
theorem addInput_ok (k : Key) (I : Key → List Nat) (l : List Nat) (a : Nat) (s : St V R)
    (hw : WInv s.w) (h : IdsInv s.w s.ids (upd I k l))
    (ha : ∃ o, s.w.cell a = some o ∧ o.kind ≠ .other) :
    ∃ w' ids', addInput k s a = { s with w := w', ids := ids' } ∧ w'.cell = s.w.cell ∧
      w'.fresh = s.w.fresh ∧ w'.dirty = s.w.dirty ∧ IdsInv w' ids' (upd I k (l ++ [a])) := by
  obtain ⟨o, ho, hko⟩ := ha
  simp only [addInput, ho]
  split
  · rename_i hnk
    have hno : o.kind ≠ .observable := by
      rintro h0; rw [h0] at hnk; simp at hnk
    refine ⟨s.w, s.ids, rfl, rfl, rfl, rfl, ?_, ?_, h.reg_one, h.reg_zero⟩
    · intro b hb j hj
      by_cases hjk : j = k
      · subst hjk
        rw [upd_self] at hj
        rcases List.mem_append.mp hj with hj | hj
        · exact h.none_ b hb j (by rwa [upd_self])
        · rw [List.mem_singleton.mp hj, kindAt_of ho]; exact hno
      · exact h.none_ b hb j (by rwa [upd_ne _ _ hjk] at hj ⊢)
    · intro b ref ks hb
      obtain ⟨h1, h2, h3⟩ := h.some_ b ref ks hb
      refine ⟨h1, h2, fun j => ?_⟩
      rw [h3 j]
      by_cases hjk : j = k
      · subst hjk
        rw [upd_self, upd_self, List.count_append]
        have : a ≠ b := by
          rintro rfl
          obtain ⟨p, hp, hpk, _⟩ := h1
          rw [ho] at hp; cases hp
          exact hno hpk
        simp [List.count_cons, this]
      · rw [upd_ne _ _ hjk, upd_ne _ _ hjk]
  · rename_i hnk
    have hobs : o.kind = .observable := by
      cases hk : o.kind <;> simp_all
    refine ⟨_, _, rfl, ?_, ?_, ?_, ?_, ?_, ?_, ?_⟩
    · split <;> rfl
    · split <;> rfl
    · split <;> rfl
    · intro b hb j hj
      rw [dget_dset] at hb
      by_cases hba : b = a
      · simp [hba] at hb
      · rw [if_neg hba] at hb
        have hm : b ∈ upd I k l j := by
          by_cases hjk : j = k
          · subst hjk
            rw [upd_self] at hj ⊢
            rcases List.mem_append.mp hj with hj | hj
            · exact hj
            · exact absurd (List.mem_singleton.mp hj) hba
          · rwa [upd_ne _ _ hjk] at hj ⊢
        have := h.none_ b hb j hm
        have hk : kindAt (if (((dget s.ids a).getD (⟨a, o.uid⟩, [])).2 ++ [k]).length = 1
            then register s.w o.list else s.w) b = kindAt s.w b := by
          split <;> rfl
        rw [hk]; exact this
    · intro b ref ks hb
      rw [dget_dset] at hb
      have hcell : (if (((dget s.ids a).getD (⟨a, o.uid⟩, [])).2 ++ [k]).length = 1
            then register s.w o.list else s.w).cell = s.w.cell := by split <;> rfl
      rw [hcell]
      by_cases hba : b = a
      · subst hba
        rw [if_pos rfl] at hb
        have hb := Option.some.inj hb
        cases hd : dget s.ids b with
        | none =>
          rw [hd] at hb
          simp only [Option.getD_none, List.nil_append, Prod.mk.injEq] at hb
          obtain ⟨hb1, hb2⟩ := hb
          refine ⟨⟨o, ho, hobs, hb1.symm⟩, by rw [← hb2]; simp, fun j => ?_⟩
          have hz : ∀ j, (upd I k l j).count b = 0 := by
            intro j
            rw [List.count_eq_zero]
            intro hm
            exact h.none_ b hd j hm (by rw [kindAt_of ho]; exact hobs)
          rw [← hb2]
          by_cases hjk : j = k
          · subst hjk
            have := hz j
            rw [upd_self] at this
            rw [upd_self, List.count_append, this]
            simp
          · rw [upd_ne _ _ hjk]
            have := hz j
            rw [upd_ne _ _ hjk] at this
            rw [this]
            simp [List.count_cons, Ne.symm hjk]
        | some v =>
          obtain ⟨ref0, ks0⟩ := v
          rw [hd] at hb
          simp only [Option.getD_some, Prod.mk.injEq] at hb
          obtain ⟨hb1, hb2⟩ := hb
          obtain ⟨⟨p, hp, hpk, hpr⟩, h2, h3⟩ := h.some_ b ref0 ks0 hd
          refine ⟨⟨p, hp, hpk, hb1 ▸ hpr⟩, by rw [← hb2]; simp, fun j => ?_⟩
          rw [← hb2, List.count_append, h3 j]
          by_cases hjk : j = k
          · subst hjk
            rw [upd_self, upd_self, List.count_append]
            simp
          · rw [upd_ne _ _ hjk, upd_ne _ _ hjk]
            simp [List.count_cons, Ne.symm hjk]
      · rw [if_neg hba] at hb
        obtain ⟨h1, h2, h3⟩ := h.some_ b ref ks hb
        refine ⟨h1, h2, fun j => ?_⟩
        rw [h3 j]
        by_cases hjk : j = k
        · subst hjk
          rw [upd_self, upd_self, List.count_append]
          simp [List.count_cons, Ne.symm hba]
        · rw [upd_ne _ _ hjk, upd_ne _ _ hjk]
    · intro b p hb hp
      have hcell : (if (((dget s.ids a).getD (⟨a, o.uid⟩, [])).2 ++ [k]).length = 1
            then register s.w o.list else s.w).cell = s.w.cell := by split <;> rfl
      rw [hcell] at hp
      rw [dget_dset] at hb
      by_cases hba : b = a
      · subst hba
        rw [ho] at hp
        cases hp
        cases hd : dget s.ids b with
        | none =>
          simp only [Option.getD_none, List.nil_append, List.length_singleton, if_true, register]
          have : s.w.reg o.list = 0 := by
            by_contra h0
            obtain ⟨x, q, hx, hq, hs⟩ := h.reg_zero _ h0
            have := hw.inj x b q o hx ho hq
            subst this
            rw [hd] at hs; simp at hs
          rw [this]
        | some v =>
          have h2 := (h.some_ b v.1 v.2 hd).2.1
          have hl : ¬ (v.2 ++ [k]).length = 1 := by
            have : 0 < v.2.length := List.length_pos_iff.mpr h2
            simp; omega
          simp only [Option.getD_some, if_neg hl]
          exact h.reg_one b o (by simp [hd]) ho
      · rw [if_neg hba] at hb
        have h1 := h.reg_one b p hb hp
        split
        · simp only [register]
          rw [if_neg]
          · exact h1
          · intro hl
            exact hba (hw.inj b a p o hp ho hl)
        · exact h1
    · intro n hn
      have hcell : (if (((dget s.ids a).getD (⟨a, o.uid⟩, [])).2 ++ [k]).length = 1
            then register s.w o.list else s.w).cell = s.w.cell := by split <;> rfl
      rw [hcell]
      by_cases hnl : n = o.list
      · exact ⟨a, o, ho, hnl.symm, by rw [dget_dset]; simp⟩
      · have hn' : s.w.reg n ≠ 0 := by
          split at hn
          · simp only [register, if_neg hnl] at hn; exact hn
          · exact hn
        obtain ⟨b, p, hb, hp, hs⟩ := h.reg_zero n hn'
        refine ⟨b, p, hb, hp, ?_⟩
        rw [dget_dset]
        split
        · simp
        · exact hs

theorem foldl_addInput_ok (k : Key) (I : Key → List Nat) : ∀ (r l : List Nat) (s : St V R),
    WInv s.w → IdsInv s.w s.ids (upd I k l) → (∀ a ∈ r, ∃ o, s.w.cell a = some o ∧ o.kind ≠ .other) →
    ∃ w' ids', r.foldl (addInput k) s = { s with w := w', ids := ids' } ∧ w'.cell = s.w.cell ∧
      w'.fresh = s.w.fresh ∧ w'.dirty = s.w.dirty ∧ IdsInv w' ids' (upd I k (l ++ r)) := by
  intro r
  induction r with
  | nil => intro l s _ h _; exact ⟨s.w, s.ids, rfl, rfl, rfl, rfl, by simpa using h⟩
  | cons a r ih =>
    intro l s hw h hl
    obtain ⟨w1, i1, e1, c1, f1, d1, h1⟩ := addInput_ok k I l a s hw h (hl a (by simp))
    rw [List.foldl_cons, e1]
    obtain ⟨w2, i2, e2, c2, f2, d2, h2⟩ := ih (l ++ [a]) { s with w := w1, ids := i1 }
      (hw.cell_eq c1 f1) h1 (by
        intro b hb
        have := hl b (List.mem_cons_of_mem _ hb)
        simpa [c1] using this)
    exact ⟨w2, i2, e2, c2.trans c1, f2.trans f1, d2.trans d1, by simpa using h2⟩

/-! ### Invariant of the whole state -/

/-- Inputs stored under each key. -/
def inputsOf (c : List (Entry R)) : Key → List Nat := fun k => ((lk c k).map Entry.args).getD []

/-- The dictionaries describe the list `c` of entries, oldest first. -/
structure Inv (cfg : Cfg V N E R) (s : St V R) (c : List (Entry R)) : Prop where
  order : s.order = c.map (fun e => prepareId e.args)
  nodup : (c.map Entry.args).Nodup
  inputs : ∀ k, dget s.inputs k = (lk c k).map Entry.args
  outputs : ∀ k, dget s.outputs k = (lk c k).map Entry.out
  changed : ∀ k, dget s.changed k = (lk c k).map Entry.stale
  live : ∀ e ∈ c, ∀ a ∈ e.args, ∃ o, s.w.cell a = some o ∧ o.kind ≠ .other
  w : WInv s.w
  ids : IdsInv s.w s.ids (inputsOf c)
  len : 0 < cfg.limit → (c.length : Int) ≤ cfg.limit
  keys : DNodup s.inputs

theorem mem_inputsOf {c : List (Entry R)} {a : Nat} {k : Key} (h : a ∈ inputsOf c k) :
    ∃ e ∈ c, a ∈ e.args ∧ prepareId e.args = k := by
  unfold inputsOf at h
  cases hl : lk c k with
  | none => rw [hl] at h; simp at h
  | some e => rw [hl] at h; exact ⟨e, lk_mem hl, by simpa using h, lk_key hl⟩

theorem inputsOf_mem {c : List (Entry R)} (hn : (c.map Entry.args).Nodup) {e : Entry R} (h : e ∈ c) :
    inputsOf c (prepareId e.args) = e.args := by
  simp [inputsOf, lk_of_mem hn h]

/-- An observable input of an entry is in `cached_input_ids`, and only those are. -/
theorem Inv.ids_isSome {cfg : Cfg V N E R} {s : St V R} {c : List (Entry R)} (h : Inv cfg s c) (a : Nat) :
    (dget s.ids a).isSome ↔ kindAt s.w a = .observable ∧ ∃ e ∈ c, a ∈ e.args := by
  constructor
  · intro hs
    obtain ⟨⟨ref, ks⟩, hd⟩ := Option.isSome_iff_exists.mp hs
    obtain ⟨⟨o, ho, hk, _⟩, h2, h3⟩ := h.ids.some_ a ref ks hd
    refine ⟨by rw [kindAt_of ho]; exact hk, ?_⟩
    obtain ⟨k, hk⟩ := List.exists_mem_of_ne_nil ks h2
    have : a ∈ inputsOf c k := by
      rw [← List.count_pos_iff, ← h3 k, List.count_pos_iff]; exact hk
    obtain ⟨e, he, ha, _⟩ := mem_inputsOf this
    exact ⟨e, he, ha⟩
  · rintro ⟨hk, e, he, ha⟩
    by_contra hn
    have hd : dget s.ids a = none := by simpa using hn
    exact h.ids.none_ a hd (prepareId e.args) (by rw [inputsOf_mem h.nodup he]; exact ha) hk

theorem Inv.init (cfg : Cfg V N E R) : Inv cfg (init : St V R) [] := by
  refine ⟨rfl, by simp, ?_, ?_, ?_, by simp, ⟨?_, ?_⟩, ⟨?_, ?_, ?_, ?_⟩, ?_, List.nodup_nil⟩
  · intro k; rfl
  · intro k; rfl
  · intro k; rfl
  · intro a b o p h; simp [Cache.init] at h
  · intro a o h; simp [Cache.init] at h
  · intro a _ k hk; simp [inputsOf, lk] at hk
  · intro a ref ks h; simp [Cache.init] at h
  · intro a o h; simp [Cache.init] at h
  · intro n h; simp [Cache.init] at h
  · intro h; simpa using le_of_lt h

/-! ### Reset -/

theorem deref_unregister (w : World V) (n : Nat) (r : Ref) : deref (unregister w n) r = deref w r := rfl

theorem resetReg_facts : ∀ (ids : Dict Nat (Ref × List Key)) (w : World V),
    (resetReg w ids).cell = w.cell ∧ (resetReg w ids).fresh = w.fresh ∧
    (resetReg w ids).dirty = w.dirty ∧
    (∀ n, (resetReg w ids).reg n ≠ 0 → w.reg n ≠ 0 ∧
      ∀ x ∈ ids, ∀ o, deref w x.2.1 = some o → o.list ≠ n) := by
  intro ids
  induction ids with
  | nil => intro w; exact ⟨rfl, rfl, rfl, fun n h => ⟨h, by simp⟩⟩
  | cons x r ih =>
    intro w
    obtain ⟨a, ref, ks⟩ := x
    simp only [resetReg]
    split
    · rename_i o ho
      obtain ⟨h1, h2, h3, h4⟩ := ih (unregister w o.list)
      refine ⟨h1, h2, h3, fun n hn => ?_⟩
      obtain ⟨h5, h6⟩ := h4 n hn
      have hne : n ≠ o.list := by
        rintro rfl; simp [unregister] at h5
      refine ⟨by simpa [unregister, hne] using h5, ?_⟩
      intro y hy p hp
      rcases List.mem_cons.mp hy with rfl | hy
      · rw [ho] at hp; cases hp; exact hne.symm
      · exact h6 y hy p hp
    · rename_i ho
      obtain ⟨h1, h2, h3, h4⟩ := ih w
      refine ⟨h1, h2, h3, fun n hn => ?_⟩
      obtain ⟨h5, h6⟩ := h4 n hn
      refine ⟨h5, ?_⟩
      intro y hy p hp
      rcases List.mem_cons.mp hy with rfl | hy
      · simp only at hp; rw [ho] at hp; cases hp
      · exact h6 y hy p hp

theorem Inv.reset {cfg : Cfg V N E R} {s : St V R} {c : List (Entry R)} (h : Inv cfg s c) :
    Inv cfg (reset s) [] ∧ (Cache.reset s).w.cell = s.w.cell ∧ (Cache.reset s).w.dirty = s.w.dirty := by
  obtain ⟨h1, h2, h3, h4⟩ := resetReg_facts s.ids s.w
  refine ⟨⟨rfl, by simp, ?_, ?_, ?_, by simp, h.w.cell_eq h1 h2, ⟨?_, ?_, ?_, ?_⟩, ?_, List.nodup_nil⟩, h1, h3⟩
  · intro k; rfl
  · intro k; rfl
  · intro k; rfl
  · intro a _ k hk; simp [inputsOf, lk] at hk
  · intro a ref ks hd; simp [Cache.reset] at hd
  · intro a o hd; simp [Cache.reset] at hd
  · intro n hn
    exfalso
    obtain ⟨h5, h6⟩ := h4 n hn
    obtain ⟨a, o, ha, ho, hs⟩ := h.ids.reg_zero n h5
    obtain ⟨⟨ref, ks⟩, hd⟩ := Option.isSome_iff_exists.mp hs
    obtain ⟨⟨p, hp, _, hr⟩, _⟩ := h.ids.some_ a ref ks hd
    rw [ha] at hp; cases hp
    exact h6 _ (mem_of_dget hd) o (by simp only; rw [hr]; exact deref_self ha) ho
  · intro h0; simpa using le_of_lt h0

/-! ### Storing -/

theorem upd_inputsOf_head (e : Entry R) (c : List (Entry R)) :
    upd (inputsOf (e :: c)) (prepareId e.args) e.args = inputsOf (e :: c) := by
  funext j
  by_cases h : j = prepareId e.args
  · subst h; simp [inputsOf, lk]
  · simp [upd, h]

theorem upd_inputsOf_tail {e : Entry R} {c : List (Entry R)} (hn : ((e :: c).map Entry.args).Nodup) :
    upd (inputsOf (e :: c)) (prepareId e.args) [] = inputsOf c := by
  funext j
  simp only [inputsOf, upd, lk_tail hn j]
  split <;> simp

theorem Inv.ensure {cfg : Cfg V N E R} {s : St V R} {c : List (Entry R)} (h : Inv cfg s c)
    (hl : cfg.limit ≠ 0) :
    ∃ s', ensureLength cfg s = .ok s' ∧
      Inv cfg s' (if (c.length : Int) = cfg.limit then c.tail else c) ∧
      s'.w.cell = s.w.cell ∧ s'.w.dirty = s.w.dirty ∧ s'.enabled = s.enabled := by
  unfold ensureLength
  have hlen : s.order.length = c.length := by rw [h.order]; simp
  rw [hlen]
  by_cases hc : (c.length : Int) = cfg.limit
  · rw [if_pos hc, if_pos hc]
    cases c with
    | nil => exact absurd hc.symm (by simpa using hl)
    | cons e c =>
      have ho := h.order
      simp only [List.map_cons] at ho
      rw [ho]
      simp only
      have hlk : lk (e :: c) (prepareId e.args) = some e := by simp [lk]
      rw [h.inputs, hlk]
      simp only [Option.map_some]
      have hids : IdsInv s.w s.ids (upd (inputsOf (e :: c)) (prepareId e.args) e.args) := by
        rw [upd_inputsOf_head]; exact h.ids
      obtain ⟨w', ids', h1, h2, h3, h4, h5⟩ := release_ok (E := E) (prepareId e.args)
        (inputsOf (e :: c)) e.args
        { s with order := c.map (fun e => prepareId e.args) } h.w hids
      rw [h1]
      refine ⟨_, rfl, ⟨rfl, ?_, ?_, ?_, ?_, ?_, h.w.cell_eq h2 h3, ?_, ?_, h.keys.ddel _⟩, h2, h4, rfl⟩
      · have := h.nodup; simp only [List.map_cons, List.nodup_cons] at this; exact this.2
      · intro k
        simp only [List.tail_cons]
        rw [dget_ddel, lk_tail h.nodup, h.inputs]
        split <;> simp
      · intro k
        simp only [List.tail_cons]
        rw [dget_ddel, lk_tail h.nodup, h.outputs]
        split <;> simp
      · intro k
        simp only [List.tail_cons]
        rw [dget_ddel, lk_tail h.nodup, h.changed]
        split <;> simp
      · intro x hx a ha
        have := h.live x (List.mem_cons_of_mem _ hx) a ha
        simpa [h2] using this
      · rw [upd_inputsOf_tail h.nodup] at h5
        exact h5
      · intro h0
        have := h.len h0
        simp only [List.length_cons, List.tail_cons] at this ⊢
        omega
  · rw [if_neg hc, if_neg hc]
    exact ⟨s, rfl, h, rfl, rfl, rfl⟩

theorem Inv.addToCache {cfg : Cfg V N E R} {s : St V R} {c : List (Entry R)} (h : Inv cfg s c)
    (l : List Nat) (v : R) (hnew : lk c (prepareId l) = none)
    (hlive : ∀ a ∈ l, ∃ o, s.w.cell a = some o ∧ o.kind ≠ .other)
    (hroom : 0 < cfg.limit → (c.length : Int) < cfg.limit) :
    Inv cfg (addToCache s (prepareId l) l v) (c ++ [⟨l, v, false⟩]) ∧
      (Cache.addToCache s (prepareId l) l v).w.cell = s.w.cell ∧
      (Cache.addToCache s (prepareId l) l v).w.dirty = s.w.dirty ∧
      (Cache.addToCache s (prepareId l) l v).enabled = s.enabled := by
  unfold Cache.addToCache
  have hids : IdsInv s.w s.ids (upd (inputsOf c) (prepareId l) []) := by
    have : upd (inputsOf c) (prepareId l) [] = inputsOf c := by
      funext j
      by_cases hj : j = prepareId l
      · subst hj; simp [inputsOf, hnew]
      · simp [upd, hj]
    rw [this]; exact h.ids
  obtain ⟨w', ids', h1, h2, h3, h4, h5⟩ := foldl_addInput_ok (prepareId l) (inputsOf c) l []
    { s with
      changed := dset s.changed (prepareId l) false
      outputs := dset s.outputs (prepareId l) v
      order := s.order ++ [prepareId l]
      inputs := dset s.inputs (prepareId l) l } h.w hids hlive
  rw [h1]
  have hlk : ∀ k, lk (c ++ [⟨l, v, false⟩]) k =
      if k = prepareId l then some ⟨l, v, false⟩ else lk c k := by
    intro k
    rw [lk_append]
    by_cases hk : k = prepareId l
    · subst hk; simp [hnew]
    · simp [hk, Ne.symm hk]
  refine ⟨⟨by simp [h.order], ?_, ?_, ?_, ?_, ?_, h.w.cell_eq h2 h3, ?_, ?_, h.keys.dset _ _⟩, h2, h4, rfl⟩
  · rw [List.map_append, List.nodup_append]
    refine ⟨h.nodup, by simp, ?_⟩
    intro x hx y hy
    simp only [List.map_cons, List.map_nil, List.mem_singleton] at hy
    subst hy
    rintro rfl
    obtain ⟨e, he, rfl⟩ := List.mem_map.mp hx
    rw [lk_of_mem h.nodup he] at hnew
    cases hnew
  · intro k
    simp only
    rw [dget_dset, hlk, h.inputs]
    split <;> simp
  · intro k
    simp only
    rw [dget_dset, hlk, h.outputs]
    split <;> simp
  · intro k
    simp only
    rw [dget_dset, hlk, h.changed]
    split <;> simp
  · intro x hx a ha
    simp only
    rw [h2]
    rcases List.mem_append.mp hx with hx | hx
    · exact h.live x hx a ha
    · rw [List.mem_singleton.mp hx] at ha
      exact hlive a ha
  · have : inputsOf (c ++ [⟨l, v, false⟩]) = upd (inputsOf c) (prepareId l) ([] ++ l) := by
      funext j
      simp only [inputsOf, hlk, upd]
      split <;> simp
    rw [this]; exact h5
  · intro h0
    have := hroom h0
    simp only [List.length_append, List.length_singleton]
    push_cast
    omega

/-! ### Marking entries -/

theorem dget_foldl_mark (ks : List Key) (d : Dict Key Bool) (j : Key) :
    dget (ks.foldl (fun c k => dset c k true) d) j = if j ∈ ks then some true else dget d j := by
  induction ks generalizing d with
  | nil => simp
  | cons k ks ih =>
    rw [List.foldl_cons, ih, dget_dset]
    by_cases h1 : j ∈ ks <;> by_cases h2 : j = k <;> simp [h1, h2]

/-- Mark an entry as stale if it depends on `a`. -/
def markE (p : Nat → Prop) [DecidablePred p] (a : Nat) (e : Entry R) : Entry R :=
  if a ∈ e.args ∧ p a then { e with stale := true } else e

theorem markE_args (p : Nat → Prop) [DecidablePred p] (a : Nat) (e : Entry R) :
    (markE p a e).args = e.args := by
  unfold markE; split <;> rfl

/-- Changing only the stale flags and outputs of entries keeps everything but these. -/
theorem Inv.map {cfg : Cfg V N E R} {s : St V R} {c : List (Entry R)} (h : Inv cfg s c)
    (f : Entry R → Entry R) (hf : ∀ e, (f e).args = e.args) (ch : Dict Key Bool) (out : Dict Key R)
    (hch : ∀ k, dget ch k = (lk c k).map (fun e => (f e).stale))
    (hout : ∀ k, dget out k = (lk c k).map (fun e => (f e).out)) :
    Inv cfg { s with changed := ch, outputs := out } (c.map f) := by
  have hargs : (c.map f).map Entry.args = c.map Entry.args := by
    rw [List.map_map]; exact List.map_congr_left (fun e _ => hf e)
  refine ⟨?_, by rw [hargs]; exact h.nodup, ?_, ?_, ?_, ?_, h.w, ?_, ?_, h.keys⟩
  · simp only [h.order, List.map_map]
    exact List.map_congr_left (fun e _ => by simp [hf])
  · intro k
    rw [lk_map c f hf, Option.map_map]
    simp only [h.inputs]
    congr 1
    funext e; simp [hf]
  · intro k
    rw [lk_map c f hf, Option.map_map]; exact hout k
  · intro k
    rw [lk_map c f hf, Option.map_map]; exact hch k
  · intro x hx a ha
    obtain ⟨e, he, rfl⟩ := List.mem_map.mp hx
    rw [hf] at ha
    exact h.live e he a ha
  · have : inputsOf (c.map f) = inputsOf c := by
      funext k
      simp only [inputsOf]
      rw [lk_map c f hf, Option.map_map]
      congr 2
      funext e; simp [hf]
    rw [this]; exact h.ids
  · intro h0; simpa using h.len h0

theorem Inv.markIds {cfg : Cfg V N E R} {s : St V R} {c : List (Entry R)} (h : Inv cfg s c) (a : Nat) :
    Inv cfg (markIds s a) (c.map (markE (fun x => kindAt s.w x = .observable) a)) ∧
      (Cache.markIds s a).w = s.w ∧ (Cache.markIds s a).enabled = s.enabled := by
  unfold Cache.markIds
  cases hd : dget s.ids a with
  | none =>
    refine ⟨?_, rfl, rfl⟩
    have hid : c.map (markE (fun x => kindAt s.w x = .observable) a) = c := by
      conv_rhs => rw [← List.map_id c]
      apply List.map_congr_left
      intro e he
      unfold markE
      rw [if_neg]
      · rfl
      · rintro ⟨ha, hk⟩
        have := (h.ids_isSome a).mpr ⟨hk, e, he, ha⟩
        rw [hd] at this; simp at this
    rw [hid]; exact h
  | some v =>
    obtain ⟨ref, ks⟩ := v
    obtain ⟨⟨o, ho, hk, _⟩, _, h3⟩ := h.ids.some_ a ref ks hd
    refine ⟨?_, rfl, rfl⟩
    have hmem : ∀ k, k ∈ ks ↔ a ∈ inputsOf c k := by
      intro k
      rw [← List.count_pos_iff, h3 k, List.count_pos_iff]
    refine h.map (markE (fun x => kindAt s.w x = .observable) a) (markE_args _ a) _ s.outputs ?_ ?_
    · intro k
      rw [dget_foldl_mark, h.changed]
      cases hl : lk c k with
      | none =>
        have : k ∉ ks := by rw [hmem]; simp [inputsOf, hl]
        simp [this]
      | some e =>
        have : k ∈ ks ↔ a ∈ e.args := by rw [hmem]; simp [inputsOf, hl]
        by_cases ha : a ∈ e.args
        · simp [this, ha, markE, kindAt_of ho, hk]
        · simp [this, ha, markE]
    · intro k
      rw [h.outputs]
      cases lk c k with
      | none => rfl
      | some e =>
        simp only [Option.map_some, markE]
        split <;> rfl

theorem Inv.onCacheChanged {cfg : Cfg V N E R} {s : St V R} {c : List (Entry R)} (h : Inv cfg s c)
    (a b : Nat) (ha : kindAt s.w a = .observable) :
    Inv cfg (onCacheChanged s a b) (c.map (fun e =>
      if a ∈ e.args ∨ (b ∈ e.args ∧ kindAt s.w b = .observable) then { e with stale := true } else e)) ∧
      (Cache.onCacheChanged s a b).w = s.w ∧ (Cache.onCacheChanged s a b).enabled = s.enabled := by
  unfold Cache.onCacheChanged
  obtain ⟨h1, h2, h3⟩ := h.markIds a
  obtain ⟨h4, h5, h6⟩ := h1.markIds b
  refine ⟨?_, h5.trans h2, h6.trans h3⟩
  rw [h2, List.map_map] at h4
  convert h4 using 2
  funext e
  simp only [Function.comp, markE]
  by_cases h7 : a ∈ e.args <;> by_cases h8 : b ∈ e.args <;> by_cases h9 : kindAt s.w b = .observable <;>
    simp [h7, h8, h9, ha]

end Paramz.Cache

import Verif.Names.TreeSpec
import Verif.Names.Props

/-!
# Lemmas on names in whole hierarchies
-/

namespace Paramz.Names

/-! ### One object, with exceptions -/

/-- The result without what is left behind by an exception. -/
def toExcept (r : Fam × Option Err) : Except Err Fam :=
  match r.2 with
  | none => .ok r.1
  | some e => .error e

theorem toExcept_andThen (r : Fam × Option Err) (f : Fam → Fam × Option Err) :
    toExcept (andThen r f) = (toExcept r >>= fun s => toExcept (f s)) := by
  obtain ⟨s, _ | e⟩ := r <;> rfl

theorem toExcept_ok {r : Fam × Option Err} {s : Fam} : toExcept r = .ok s ↔ r = (s, none) := by
  obtain ⟨t, _ | e⟩ := r
  · constructor
    · intro h; cases h; rfl
    · intro h; cases h; rfl
  · constructor
    · intro h; cases h
    · intro h; cases h

theorem foldl_toExcept (f : Fam → Id → Fam × Option Err) : ∀ (l : List Id) (r : Fam × Option Err),
    toExcept (l.foldl (fun r x => andThen r (fun s => f s x)) r) =
      (toExcept r >>= fun s => l.foldlM (fun s x => toExcept (f s x)) s)
  | [], r => by obtain ⟨s, _ | e⟩ := r <;> rfl
  | x :: l, r => by
    rw [List.foldl_cons, foldl_toExcept f l, toExcept_andThen]
    obtain ⟨s, _ | e⟩ := r <;> rfl

/-- `run` is `go` with the state kept. -/
theorem run_go (n : Nat) : ∀ (s : Fam) (q : Option Id), go n s q = toExcept (run n s q) := by
  induction n with
  | zero => intro s q; rw [go, run]; rfl
  | succ n ih =>
    intro s q
    cases q with
    | none =>
      rw [go, run, foldl_toExcept (fun s x => run n s (some x))]
      have : (fun s x => go n s (some x)) = (fun s x => toExcept (run n s (some x))) := by
        funext s x; exact ih s (some x)
      rw [this]
      rfl
    | some x =>
      rw [go, run]
      generalize adjust (s.name x) = a1
      cases a1 with
      | none => rfl
      | some pname =>
        dsimp only
        generalize s.other x = o1
        cases o1 with
        | none => rfl
        | some o =>
          dsimp only
          generalize adjust (s.name o) = a2
          cases a2 with
          | none => rfl
          | some old =>
            dsimp only
            rw [toExcept_andThen, ih]
            congr 1
            funext s2
            rw [toExcept_andThen, ih]
            congr 1
            funext s3
            exact ih s3 (some o)

theorem nl_nextName {a : Name} (h : '\n' ∉ a) : '\n' ∉ nextName a := by
  have nl : ∀ m : Nat, '\n' ∉ '_' :: Nat.toDigits 10 m := by
    intro m hm
    rcases List.mem_cons.mp hm with h | hm
    · revert h; decide
    · have := Nat.isDigit_of_mem_toDigits (by decide) (by decide) hm
      revert this; decide
  unfold nextName
  cases hs : splitDigit a with
  | none =>
    simp only [List.mem_append]
    rintro (h' | h')
    · exact h h'
    · revert h'; decide
  | some v =>
    obtain ⟨stem, ds⟩ := v
    simp only [List.mem_append]
    have h1 := (splitDigit_some hs).1
    rintro (h' | h')
    · exact h (by rw [h1]; exact List.mem_append_left _ h')
    · exact nl _ h'

/-- What is kept by everything that is done with the names of one object, whether it raises or not. -/
structure Keeps (s s' : Fam) : Prop where
  kids : s'.kids = s.kids
  own : s'.own = s.own
  outside : ∀ y, y ∉ s.kids → s'.name y = s.name y
  sound : s.Sound → s'.Sound
  bad : ∀ y, adjust (s.name y) = none → s'.name y = s.name y
  nl : (∀ y, '\n' ∉ s.name y) → ∀ y, '\n' ∉ s'.name y
  apart : (∀ n, (s.attrs n).isSome = true → s.own n = false) → ∀ n, (s'.attrs n).isSome = true → s'.own n = false

theorem Keeps.refl (s : Fam) : Keeps s s := ⟨rfl, rfl, fun _ _ => rfl, fun h => h, fun _ _ => rfl, fun h => h, fun h => h⟩

theorem Keeps.trans {s s' s'' : Fam} (a : Keeps s s') (b : Keeps s' s'') : Keeps s s'' where
  kids := b.kids.trans a.kids
  own := b.own.trans a.own
  outside := fun y hy => (b.outside y (by rw [a.kids]; exact hy)).trans (a.outside y hy)
  sound := fun h => b.sound (a.sound h)
  bad := fun y hy => (b.bad y (by rw [a.bad y hy]; exact hy)).trans (a.bad y hy)
  nl := fun h => b.nl (a.nl h)
  apart := fun h => b.apart (a.apart h)

theorem keeps_setAttr {s : Fam} {x : Id} {n : Name} (hx : x ∈ s.kids) (hn : adjust (s.name x) = some n) :
    Keeps s (s.setAttr n x) := by
  have e := (setAttr_ext hx hn).1
  exact ⟨e.kids, e.own, fun y _ => by rw [e.name], e.sound, fun y _ => by rw [e.name], fun h y => by
    rw [e.name]; exact h y, fun h m hm => by
    unfold Fam.setAttr at hm ⊢
    split at hm
    · rename_i hc
      rw [if_pos hc]; exact h m hm
    · rename_i hc
      rw [if_neg hc]
      show s.own m = false
      by_cases hmn : m = n
      · rw [Bool.or_eq_true, not_or, Bool.not_eq_true] at hc
        rw [hmn]; exact hc.1
      · refine h m ?_
        have hm : (if m = n then some x else s.attrs m).isSome = true := hm
        rwa [if_neg hmn] at hm⟩

/-- Removing the attribute of an object that gets another name. -/
theorem sound_renamed {s : Fam} {o : Id} {old new : Name} (hold : adjust (s.name o) = some old)
    (hs : s.Sound) : (({ s with name := upd s.name o new } : Fam).delAttr old).Sound := by
  intro m z hz
  have hz : (if m = old then none else s.attrs m) = some z := hz
  split at hz
  · cases hz
  · rename_i hmo
    obtain ⟨h1, h2⟩ := hs m z hz
    refine ⟨h1, ?_⟩
    show adjust (upd s.name o new z) = some m
    by_cases h : z = o
    · subst h
      rw [hold] at h2
      cases h2
      exact absurd rfl hmo
    · rw [upd_ne h]; exact h2

theorem keeps_next {s : Fam} {o : Id} {old : Name} (ho : o ∈ s.kids) (hold : adjust (s.name o) = some old) :
    Keeps s (({ s with name := upd s.name o (nextName (s.name o)) } : Fam).delAttr old) where
  kids := rfl
  own := rfl
  outside := fun y hy => upd_ne (fun e => hy (e ▸ ho))
  sound := sound_renamed hold
  bad := fun y hy => upd_ne (fun e => by rw [e, hold] at hy; cases hy)
  nl := fun h y => by
    show '\n' ∉ upd s.name o (nextName (s.name o)) y
    by_cases e : y = o
    · rw [e, upd_same]; exact nl_nextName (h o)
    · rw [upd_ne e]; exact h y
  apart := fun h m hm => by
    have hm : (if m = old then none else s.attrs m).isSome = true := hm
    split at hm
    · cases hm
    · exact h m hm

theorem other_some {s : Fam} {x o : Id} (h : s.other x = some o) : o ∈ s.kids ∧ o ≠ x ∧ s.name o = s.name x := by
  unfold Fam.other at h
  have h1 := List.find?_some h
  have h2 := List.mem_of_find?_eq_some h
  simp only [decide_eq_true_eq] at h1
  exact ⟨h2, h1⟩

theorem Keeps.andThen {s : Fam} {r : Fam × Option Err} {f : Fam → Fam × Option Err} (h : Keeps s r.1)
    (hf : ∀ t, t.kids = s.kids → Keeps t (f t).1) : Keeps s (andThen r f).1 := by
  obtain ⟨t, _ | e⟩ := r
  · exact h.trans (hf t h.kids)
  · exact h

theorem foldl_keeps {f : Fam → Id → Fam × Option Err} : ∀ {l : List Id} {s : Fam} {r : Fam × Option Err},
    (∀ x ∈ l, ∀ t, t.kids = s.kids → Keeps t (f t x).1) → Keeps s r.1 →
    Keeps s (l.foldl (fun r x => Names.andThen r (fun s => f s x)) r).1
  | [], _, _, _, h => h
  | x :: l, s, r, hf, h => by
    rw [List.foldl_cons]
    exact foldl_keeps (fun y hy => hf y (List.mem_cons_of_mem _ hy))
      (h.andThen (fun t ht => hf x List.mem_cons_self t ht))

/-- Whatever happens. -/
theorem run_keeps : ∀ (n : Nat) (s : Fam) (q : Option Id), (∀ x, q = some x → x ∈ s.kids) →
    Keeps s (run n s q).1
  | 0, s, _, _ => .refl s
  | n + 1, s, none, _ => by
    simp only [run]
    refine foldl_keeps (f := fun s x => run n s (some x)) (fun x hx t ht => ?_) (.refl s)
    exact run_keeps n t (some x) (fun y hy => by cases hy; rw [ht]; exact hx)
  | n + 1, s, some x, hq => by
    have hx := hq x rfl
    simp only [run]
    cases ha : adjust (s.name x) with
    | none => exact .refl s
    | some pname =>
      cases ho : s.other x with
      | none => exact keeps_setAttr hx ha
      | some o =>
        obtain ⟨hok, -, hon⟩ := other_some ho
        simp only
        rw [hon, ha]
        simp only
        rw [← hon]
        have k1 := keeps_next hok (hon ▸ ha)
        refine Keeps.andThen (k1.trans (run_keeps n _ none (fun x hx => by cases hx))) (fun t ht => ?_)
        refine Keeps.andThen (run_keeps n t (some o) (fun y hy => by cases hy; rw [ht]; exact hok)) ?_
        intro t' ht'
        exact run_keeps n t' (some o) (fun y hy => by cases hy; rw [ht', ht]; exact hok)

/-- With a parameter whose name cannot be printed, connecting raises. -/
theorem run_bad {n : Nat} {s : Fam} {b : Id} (hb : b ∈ s.kids) (hbad : adjust (s.name b) = none) :
    (run n s none).2 ≠ none := by
  cases n with
  | zero => simp [run]
  | succ n =>
    simp only [run]
    have key : ∀ (l : List Id) (r : Fam × Option Err), (∀ x ∈ l, x ∈ s.kids) → Keeps s r.1 →
        (b ∈ l ∨ r.2 ≠ none) →
        (l.foldl (fun r x => andThen r (fun s => run n s (some x))) r).2 ≠ none := by
      intro l
      induction l with
      | nil =>
        intro r _ _ h
        rcases h with h | h
        · simp at h
        · exact h
      | cons x l ih =>
        intro r hl hk h
        rw [List.foldl_cons]
        have hx := hl x List.mem_cons_self
        have hkeep : Keeps s (andThen r (fun s => run n s (some x))).1 :=
          hk.andThen (fun t ht => run_keeps n t (some x) (fun y hy => by cases hy; rw [ht]; exact hx))
        refine ih _ (fun y hy => hl y (List.mem_cons_of_mem _ hy)) hkeep ?_
        obtain ⟨t, _ | e⟩ := r
        · rcases h with h | h
          · rcases List.mem_cons.mp h with rfl | h
            · right
              show (run n t (some b)).2 ≠ none
              cases n with
              | zero => simp [run]
              | succ n =>
                have : adjust (t.name b) = none := by
                  rw [hk.bad b hbad]; exact hbad
                simp only [run, this]
                simp
            · exact .inl h
          · exact absurd rfl h
        · right
          simp [andThen]
    exact key s.kids (s, none) (fun _ h => h) (.refl s) (.inl hb)

theorem foldl_stuck {f : Fam → Id → Fam × Option Err} : ∀ (l : List Id) (t : Fam) (e : Err),
    l.foldl (fun r x => andThen r (fun s => f s x)) (t, some e) = (t, some e)
  | [], _, _ => rfl
  | _ :: l, t, e => by rw [List.foldl_cons]; exact foldl_stuck l t e

theorem foldl_mono {f g : Fam → Id → Fam × Option Err} (e : Err)
    (h : ∀ s x, (f s x).2 ≠ some e → g s x = f s x) : ∀ (l : List Id) (r : Fam × Option Err),
    (l.foldl (fun r x => andThen r (fun s => f s x)) r).2 ≠ some e →
    l.foldl (fun r x => andThen r (fun s => g s x)) r = l.foldl (fun r x => andThen r (fun s => f s x)) r
  | [], _, _ => rfl
  | x :: l, r, hne => by
    rw [List.foldl_cons] at hne ⊢
    rw [List.foldl_cons]
    have : andThen r (fun s => g s x) = andThen r (fun s => f s x) := by
      obtain ⟨t, _ | e'⟩ := r
      · refine h t x (fun h' => hne ?_)
        have h1 : andThen (t, none) (fun s => f s x) = ((f t x).1, some e) := by rw [← h']; rfl
        rw [h1, foldl_stuck]
      · rfl
    rw [this]
    exact foldl_mono e h l _ hne

theorem andThen_mono {σ ε : Type} {e : ε} {r r' : σ × Option ε} {f f' : σ → σ × Option ε}
    (hr : r.2 ≠ some e → r' = r) (hf : ∀ s, (f s).2 ≠ some e → f' s = f s)
    (h : (andThen r f).2 ≠ some e) : andThen r' f' = andThen r f := by
  have h1 : r' = r := hr (fun h' => h (by unfold andThen; rw [h']))
  rw [h1]
  obtain ⟨s, _ | e'⟩ := r
  · exact hf s h
  · rfl

/-- More depth changes nothing if the depth was sufficient. -/
theorem run_mono (n : Nat) : ∀ (s : Fam) (q : Option Id), (run n s q).2 ≠ some .recursionError →
    run (n + 1) s q = run n s q := by
  induction n with
  | zero => intro s q h; exact absurd rfl h
  | succ n ih =>
    intro s q h
    cases q with
    | none =>
      rw [run] at h
      rw [run, run]
      exact foldl_mono (f := fun s x => run n s (some x)) (g := fun s x => run (n + 1) s (some x)) _
        (fun s x hne => ih s (some x) hne) _ _ h
    | some x =>
      rw [run] at h
      rw [run, run]
      generalize adjust (s.name x) = a1 at h ⊢
      cases a1 with
      | none => rfl
      | some pname =>
        dsimp only at h ⊢
        generalize s.other x = o1 at h ⊢
        cases o1 with
        | none => rfl
        | some o =>
          dsimp only at h ⊢
          generalize adjust (s.name o) = a2 at h ⊢
          cases a2 with
          | none => rfl
          | some old =>
            dsimp only at h ⊢
            exact andThen_mono (ih _ _) (fun s2 h2 => andThen_mono (ih _ _) (fun s3 h3 => ih _ _ h3) h2) h

end Paramz.Names

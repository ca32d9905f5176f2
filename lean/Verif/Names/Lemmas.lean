import Verif.Names.Spec
import Mathlib.Data.List.Basic
import Mathlib.Data.List.Perm.Subperm
import Mathlib.Order.Monotone.Basic
import Mathlib.Data.Nat.Find

/-!
# Lemmas about names
-/

namespace Paramz.Names

/-! ### `adjust_name_for_printing` -/

theorem replace1_append (c : Char) (t a b : Name) :
    replace1 c t (a ++ b) = replace1 c t a ++ replace1 c t b := by
  unfold replace1; rw [List.flatMap_append]

theorem replace1_id {c : Char} {t : Name} : ∀ {s : Name}, c ∉ s → replace1 c t s = s
  | [], _ => rfl
  | x :: s, h => by
    unfold replace1
    rw [List.flatMap_cons, if_neg (show x ≠ c from fun e => h (e ▸ List.mem_cons_self))]
    have := replace1_id (c := c) (t := t) (s := s) (fun hm => h (List.mem_cons_of_mem _ hm))
    unfold replace1 at this
    rw [this]; rfl

theorem not_mem_replace1 {c : Char} {t : Name} (ht : c ∉ t) (s : Name) : c ∉ replace1 c t s := by
  unfold replace1
  rw [List.mem_flatMap]
  rintro ⟨x, -, hx⟩
  split at hx
  · exact ht hx
  · rename_i hne
    rw [List.mem_singleton] at hx
    exact hne hx.symm

theorem mem_replace1 {c d : Char} {t s : Name} (h : d ∈ replace1 c t s) : d ∈ s ∨ d ∈ t := by
  unfold replace1 at h
  rw [List.mem_flatMap] at h
  obtain ⟨x, hx, hd⟩ := h
  split at hd
  · exact .inr hd
  · rw [List.mem_singleton] at hd; exact .inl (hd ▸ hx)

theorem replaceStars_id {t : Name} : ∀ {s : Name}, '*' ∉ s → replaceStars t s = s
  | [], _ => rfl
  | x :: s, h => by
    have ih := replaceStars_id (t := t) (s := s) (fun hm => h (List.mem_cons_of_mem _ hm))
    have hx : x ≠ '*' := fun e => h (e ▸ List.mem_cons_self)
    rw [replaceStars, ih]
    intro s' h1
    exact absurd h1 hx

theorem mem_replaceStars {t : Name} {d : Char} : ∀ {s : Name}, d ∈ replaceStars t s → d ∈ s ∨ d ∈ t
  | [], h => by simp [replaceStars] at h
  | [x], h => by
    simp only [replaceStars] at h
    exact .inl h
  | x :: y :: s, h => by
    by_cases hxy : x = '*' ∧ y = '*'
    · obtain ⟨rfl, rfl⟩ := hxy
      rw [replaceStars, List.mem_append] at h
      rcases h with h | h
      · exact .inr h
      · rcases mem_replaceStars h with h | h
        · exact .inl (List.mem_cons_of_mem _ (List.mem_cons_of_mem _ h))
        · exact .inr h
    · rw [replaceStars, List.mem_cons] at h
      · rcases h with h | h
        · exact .inl (h ▸ List.mem_cons_self)
        · rcases mem_replaceStars h with h | h
          · exact .inl (List.mem_cons_of_mem _ h)
          · exact .inr h
      · rintro s' rfl h2
        cases h2
        exact hxy ⟨rfl, rfl⟩

theorem replaceStars_append {t : Name} {b : Name} (hb : ∀ c, b.head? = some c → c ≠ '*') :
    ∀ a : Name, replaceStars t (a ++ b) = replaceStars t a ++ replaceStars t b
  | [] => rfl
  | [x] => by
    simp only [replaceStars, List.singleton_append]
    rw [replaceStars]
    rintro s' rfl h2
    rw [h2] at hb
    exact absurd rfl (hb '*' rfl)
  | x :: y :: s => by
    by_cases hxy : x = '*' ∧ y = '*'
    · obtain ⟨rfl, rfl⟩ := hxy
      simp only [List.cons_append, replaceStars]
      rw [replaceStars_append hb s, List.append_assoc]
    · have h1 : ∀ r, replaceStars t (x :: y :: r) = x :: replaceStars t (y :: r) := by
        intro r
        rw [replaceStars]
        rintro s' rfl h2
        cases h2
        exact hxy ⟨rfl, rfl⟩
      simp only [List.cons_append]
      rw [h1, h1, List.cons_append]
      congr 1
      exact replaceStars_append hb (y :: s)

/-- No special character is left. -/
theorem substitute_clean (s : Name) :
    ∀ c ∈ [' ', '.', '-', '+', '!', '*', '/', '@', '(', ')'], c ∉ substitute s := by
  unfold substitute
  intro c hc h
  simp only at h
  simp only [List.mem_cons, List.not_mem_nil, or_false] at hc
  have key : ∀ {c d : Char} {t s : Name}, d ∉ s → d ∉ t → d ∉ replace1 c t s :=
    fun h1 h2 h3 => (mem_replace1 h3).elim h1 h2
  have keyS : ∀ {d : Char} {t s : Name}, d ∉ s → d ∉ t → d ∉ replaceStars t s :=
    fun h1 h2 h3 => (mem_replaceStars h3).elim h1 h2
  revert h
  rcases hc with rfl | rfl | rfl | rfl | rfl | rfl | rfl | rfl | rfl | rfl
  · exact key (key (key (key (key (keyS (key (key (key (key (not_mem_replace1 (by decide) _) (by decide)) (by decide)) (by decide))
      (by decide)) (by decide)) (by decide)) (by decide)) (by decide)) (by decide)) (by decide)
  · exact key (key (key (key (key (keyS (key (key (key (not_mem_replace1 (by decide) _) (by decide)) (by decide))
      (by decide)) (by decide)) (by decide)) (by decide)) (by decide)) (by decide)) (by decide)
  · exact key (key (key (key (key (keyS (key (key (not_mem_replace1 (by decide) _) (by decide))
      (by decide)) (by decide)) (by decide)) (by decide)) (by decide)) (by decide)) (by decide)
  · exact key (key (key (key (key (keyS (key (not_mem_replace1 (by decide) _)
      (by decide)) (by decide)) (by decide)) (by decide)) (by decide)) (by decide)) (by decide)
  · exact key (key (key (key (key (keyS (not_mem_replace1 (by decide) _)
      (by decide)) (by decide)) (by decide)) (by decide)) (by decide)) (by decide)
  · exact key (key (key (key (not_mem_replace1 (by decide) _)
      (by decide)) (by decide)) (by decide)) (by decide)
  · exact key (key (key (not_mem_replace1 (by decide) _)
      (by decide)) (by decide)) (by decide)
  · exact key (key (not_mem_replace1 (by decide) _)
      (by decide)) (by decide)
  · exact key (not_mem_replace1 (by decide) _) (by decide)
  · exact not_mem_replace1 (by decide) _

/-- A string without special characters is left alone. -/
theorem substitute_id {s : Name} (h : ∀ c ∈ [' ', '.', '-', '+', '!', '*', '/', '@', '(', ')'], c ∉ s) :
    substitute s = s := by
  have g : ∀ c, c ∈ [' ', '.', '-', '+', '!', '*', '/', '@', '(', ')'] → ∀ t, replace1 c t s = s :=
    fun c hc t => replace1_id (h c hc)
  unfold substitute
  simp only []
  rw [g ' ' (by decide), g '.' (by decide), g '-' (by decide), g '+' (by decide), g '!' (by decide),
    replaceStars_id (h '*' (by decide)), g '*' (by decide), g '/' (by decide), g '@' (by decide),
    g '(' (by decide), g ')' (by decide)]

/-- Substitution of a string that is glued together at an underscore or digit. -/
theorem substitute_append {a b : Name}
    (h : ∀ c ∈ [' ', '.', '-', '+', '!', '*', '/', '@', '(', ')'], c ∉ b) :
    substitute (a ++ b) = substitute a ++ b := by
  have hb : ∀ c, c ∈ [' ', '.', '-', '+', '!', '*', '/', '@', '(', ')'] → ∀ t, replace1 c t b = b :=
    fun c hc t => replace1_id (h c hc)
  have hs : ∀ t a, replaceStars t (a ++ b) = replaceStars t a ++ b := by
    intro t a
    rw [replaceStars_append, replaceStars_id (h '*' (by decide))]
    intro c hc
    have hm := List.mem_of_mem_head? hc
    rintro rfl
    exact h '*' (by decide) hm
  unfold substitute
  simp only [replace1_append]
  rw [hb ' ' (by decide), hb '.' (by decide), hb '-' (by decide), hb '+' (by decide), hb '!' (by decide), hs]
  simp only [replace1_append]
  rw [hb '*' (by decide), hb '/' (by decide), hb '@' (by decide), hb '(' (by decide), hb ')' (by decide)]

theorem startChar_iff {c : Char} : startChar c = true ↔ c.isAlpha = true ∨ c = '_' := by
  unfold startChar Char.isAlpha Char.isUpper Char.isLower
  simp only [decide_eq_true_eq, Bool.or_eq_true, Bool.and_eq_true, Char.le_def, ge_iff_le]
  constructor
  · rintro (h | h | h)
    · exact .inl (.inr h)
    · exact .inl (.inl h)
    · exact .inr h
  · rintro ((h | h) | h)
    · exact .inr (.inl h)
    · exact .inl h
    · exact .inr (.inr h)

theorem restChar_iff {c : Char} : restChar c = true ↔ c.isAlphanum = true ∨ c = '_' ∨ c = '-' := by
  unfold restChar Char.isAlphanum Char.isDigit
  rw [Bool.or_eq_true, Bool.or_eq_true, startChar_iff]
  simp only [decide_eq_true_eq, Bool.or_eq_true, Bool.and_eq_true, Char.le_def, ge_iff_le]
  tauto

theorem nameMatch_cons (c : Char) (s : Name) : nameMatch (c :: s) = (startChar c && restMatch s) := rfl

theorem adjust_some {s t : Name} : adjust s = some t ↔ nameMatch (substitute s) = true ∧ t = substitute s := by
  unfold adjust
  simp only []
  split
  · rename_i h; simp [h, eq_comm]
  · rename_i h; simp [h]

/-! ### `nextName` -/

theorem splitDigit_append {stem ds : Name} (hne : ds ≠ []) (hd : ∀ c ∈ ds, c.isDigit = true) :
    splitDigit (stem ++ '_' :: ds) = some (stem, ds) := by
  have hrev : (stem ++ '_' :: ds).reverse = ds.reverse ++ '_' :: stem.reverse := by simp
  have hd' : ∀ c ∈ ds.reverse, c.isDigit = true := fun c hc => hd c (List.mem_reverse.mp hc)
  have h1 : (stem ++ '_' :: ds).reverse.takeWhile Char.isDigit = ds.reverse := by
    rw [hrev, List.takeWhile_append_of_pos hd', List.takeWhile_cons_of_neg (by decide), List.append_nil]
  have h2 : (stem ++ '_' :: ds).reverse.dropWhile Char.isDigit = '_' :: stem.reverse := by
    rw [hrev, List.dropWhile_append_of_pos hd', List.dropWhile_cons_of_neg (by decide)]
  unfold splitDigit
  rw [h1, h2, List.reverse_reverse]
  cases ds with
  | nil => exact absurd rfl hne
  | cons c ds => simp

theorem mem_takeWhile {p : Char → Bool} {c : Char} : ∀ {l : Name}, c ∈ l.takeWhile p → p c = true
  | [], h => by simp at h
  | x :: l, h => by
    cases hx : p x with
    | true =>
      rw [List.takeWhile_cons_of_pos hx, List.mem_cons] at h
      rcases h with rfl | h
      · exact hx
      · exact mem_takeWhile h
    | false => rw [List.takeWhile_cons_of_neg (by simp [hx])] at h; simp at h

theorem splitDigit_some {s stem ds : Name} (h : splitDigit s = some (stem, ds)) :
    s = stem ++ '_' :: ds ∧ ds ≠ [] ∧ ∀ c ∈ ds, c.isDigit = true := by
  unfold splitDigit at h
  simp only at h
  have hs : s = (s.reverse.dropWhile Char.isDigit).reverse ++ (s.reverse.takeWhile Char.isDigit).reverse := by
    rw [← List.reverse_append, List.takeWhile_append_dropWhile, List.reverse_reverse]
  have hdig : ∀ c ∈ (s.reverse.takeWhile Char.isDigit).reverse, c.isDigit = true := by
    intro c hc
    exact mem_takeWhile (List.mem_reverse.mp hc)
  generalize (s.reverse.takeWhile Char.isDigit).reverse = X at *
  generalize s.reverse.dropWhile Char.isDigit = Y at *
  split at h
  · cases h
  · rename_i hne
    simp only [Option.some.injEq, Prod.mk.injEq] at h
    obtain ⟨rfl, rfl⟩ := h
    refine ⟨?_, fun e => hne e, hdig⟩
    rw [hs]; simp
  · cases h

/-- The number a name ends in. -/
def rank (s : Name) : Nat :=
  match splitDigit s with
  | none => 0
  | some (_, ds) => Nat.ofDigitChars 10 ds 0 + 1

theorem splitDigit_toDigits (stem : Name) (m : Nat) :
    splitDigit (stem ++ '_' :: Nat.toDigits 10 m) = some (stem, Nat.toDigits 10 m) :=
  splitDigit_append Nat.toDigits_ne_nil
    (fun _ hc => Nat.isDigit_of_mem_toDigits (by decide) (by decide) hc)

theorem rank_nextName (s : Name) : rank s < rank (nextName s) := by
  have h1 : rank (nextName s) = match splitDigit s with
      | none => 2
      | some (_, ds) => Nat.ofDigitChars 10 ds 0 + 2 := by
    unfold nextName
    cases h : splitDigit s with
    | none =>
      simp only []
      have : s ++ ['_', '1'] = s ++ '_' :: Nat.toDigits 10 1 := by
        congr 1
      rw [this]
      unfold rank
      rw [splitDigit_toDigits]
      simp only [Nat.ofDigitChars_ten_toDigits]
    | some p =>
      obtain ⟨stem, ds⟩ := p
      simp only []
      unfold rank
      rw [splitDigit_toDigits]
      simp only [Nat.ofDigitChars_ten_toDigits]
  rw [h1]
  unfold rank
  cases splitDigit s with
  | none => simp
  | some p => simp

theorem iterate_injective (n : Name) : Function.Injective (fun k => nextName^[k] n) := by
  have hm : StrictMono (fun k => rank (nextName^[k] n)) := by
    refine strictMono_nat_of_lt_succ (fun k => ?_)
    rw [Function.iterate_succ_apply']
    exact rank_nextName _
  intro a b h
  exact hm.injective (congrArg rank h)

/-- Among the first names of the sequence one is not taken. -/
theorem exists_free (F : List Name) (n : Name) : ∃ k, nextName^[k] n ∉ F := by
  by_contra h
  have h' : ∀ k, nextName^[k] n ∈ F := fun k => by
    by_contra hk; exact h ⟨k, hk⟩
  have hn : ((List.range (F.length + 1)).map (fun k => nextName^[k] n)).Nodup :=
    List.Nodup.map (iterate_injective n) List.nodup_range
  have hs : ((List.range (F.length + 1)).map (fun k => nextName^[k] n)) ⊆ F := by
    intro m hm
    obtain ⟨k, -, rfl⟩ := List.mem_map.mp hm
    exact h' k
  have := (List.Nodup.subperm hn hs).length_le
  simp at this
  omega

theorem nextName_good {n : Name} (h : Good n) : Good (nextName n) := by
  have clean : ∀ m : Nat, ∀ c ∈ [' ', '.', '-', '+', '!', '*', '/', '@', '(', ')'],
      c ∉ '_' :: Nat.toDigits 10 m := by
    intro m c hc hm
    rcases List.mem_cons.mp hm with rfl | hm
    · revert hc; decide
    · have := Nat.isDigit_of_mem_toDigits (by decide) (by decide) hm
      revert this hc
      simp only [List.mem_cons, List.not_mem_nil, or_false]
      rintro (rfl | rfl | rfl | rfl | rfl | rfl | rfl | rfl | rfl | rfl) <;> decide
  have dig : ∀ c : Char, c.isDigit = true → restChar c = true := by
    intro c hc
    rw [restChar_iff]
    left
    unfold Char.isAlphanum
    rw [hc]; simp
  have nl : ∀ m : Nat, '\n' ∉ '_' :: Nat.toDigits 10 m := by
    intro m hm
    rcases List.mem_cons.mp hm with h | hm
    · revert h; decide
    · have := Nat.isDigit_of_mem_toDigits (by decide) (by decide) hm
      revert this; decide
  -- what follows an accepted beginning
  have ext : ∀ (a : Name) (m : Nat), '\n' ∉ a →
      (substitute a = [] ∨ nameMatch (substitute a) = true) →
      (adjust (a ++ '_' :: Nat.toDigits 10 m)).isSome = true := by
    intro a m hna ha
    have hsub := substitute_append (a := a) (clean m)
    have : nameMatch (substitute (a ++ '_' :: Nat.toDigits 10 m)) = true := by
      rw [hsub]
      have hds : (('_' : Char) :: Nat.toDigits 10 m).all restChar = true := by
        rw [List.all_eq_true]
        intro c hc
        rcases List.mem_cons.mp hc with rfl | hc
        · decide
        · exact dig c (Nat.isDigit_of_mem_toDigits (by decide) (by decide) hc)
      rcases ha with ha | ha
      · rw [ha, List.nil_append]
        rw [nameMatch_cons]
        rw [List.all_cons, Bool.and_eq_true] at hds
        unfold restMatch
        rw [hds.2, Bool.true_or]; decide
      · cases hsa : substitute a with
        | nil => rw [hsa] at ha; cases ha
        | cons c t =>
          rw [hsa] at ha
          rw [nameMatch_cons, Bool.and_eq_true] at ha
          rw [List.cons_append, nameMatch_cons]
          rw [ha.1, Bool.true_and]
          have hnsub : '\n' ∉ c :: t := by
            rw [← hsa]
            unfold substitute
            simp only []
            have key : ∀ {c : Char} {t s : Name}, '\n' ∉ s → '\n' ∉ t → '\n' ∉ replace1 c t s :=
              fun h1 h2 h3 => (mem_replace1 h3).elim h1 h2
            have keyS : ∀ {t s : Name}, '\n' ∉ s → '\n' ∉ t → '\n' ∉ replaceStars t s :=
              fun h1 h2 h3 => (mem_replaceStars h3).elim h1 h2
            exact key (key (key (key (key (keyS (key (key (key (key (key hna (by decide)) (by decide)) (by decide)) (by decide))
              (by decide)) (by decide)) (by decide)) (by decide)) (by decide)) (by decide)) (by decide)
          have htall : t.all restChar = true := by
            unfold restMatch at ha
            rcases (Bool.or_eq_true _ _).mp ha.2 with h1 | h1
            · exact h1
            · exfalso
              rw [Bool.and_eq_true] at h1
              have h2 : t.getLast? = some '\n' := by simpa using h1.1
              exact hnsub (List.mem_cons_of_mem _ (List.mem_of_getLast? h2))
          unfold restMatch
          rw [List.all_append, htall, hds]; rfl
    rw [(adjust_some (t := substitute (a ++ '_' :: Nat.toDigits 10 m))).mpr ⟨this, rfl⟩]; rfl
  obtain ⟨t, ht⟩ := Option.isSome_iff_exists.mp h.1
  have hm := (adjust_some.mp ht).1
  unfold nextName
  cases hs : splitDigit n with
  | none =>
    simp only []
    have e : n ++ ['_', '1'] = n ++ '_' :: Nat.toDigits 10 1 := by congr 1
    rw [e]
    refine ⟨ext n 1 h.2 (.inr hm), ?_⟩
    rw [List.mem_append]
    exact fun hh => hh.elim h.2 (nl 1)
  | some p =>
    obtain ⟨stem, ds⟩ := p
    simp only []
    obtain ⟨rfl, hne, hdd⟩ := splitDigit_some hs
    have hnst : '\n' ∉ stem := fun hh => h.2 (List.mem_append_left _ hh)
    refine ⟨ext stem _ hnst ?_, ?_⟩
    · have hcl : ∀ c ∈ [' ', '.', '-', '+', '!', '*', '/', '@', '(', ')'], c ∉ '_' :: ds := by
        intro c hc hmm
        rcases List.mem_cons.mp hmm with rfl | hmm
        · revert hc; decide
        · have := hdd c hmm
          revert this hc
          simp only [List.mem_cons, List.not_mem_nil, or_false]
          rintro (rfl | rfl | rfl | rfl | rfl | rfl | rfl | rfl | rfl | rfl) <;> decide
      rw [substitute_append hcl] at hm
      cases hsa : substitute stem with
      | nil => exact .inl rfl
      | cons c t =>
        right
        rw [hsa, List.cons_append] at hm
        rw [nameMatch_cons] at hm ⊢
        rw [Bool.and_eq_true] at hm
        rw [hm.1, Bool.true_and]
        unfold restMatch at hm ⊢
        rw [Bool.or_eq_true] at hm ⊢
        left
        rcases hm.2 with h1 | h1
        · rw [List.all_append, Bool.and_eq_true] at h1; exact h1.1
        · rw [Bool.and_eq_true] at h1
          have h2 : (t ++ '_' :: ds).getLast? = some '\n' := by simpa using h1.1
          exfalso
          have h3 := List.mem_of_getLast? h2
          rw [List.getLast?_append_of_ne_nil _ (by simp)] at h2
          have h4 := List.mem_of_getLast? h2
          rcases List.mem_cons.mp h4 with h5 | h5
          · revert h5; decide
          · have := hdd _ h5
            revert this; decide
    · rw [List.mem_append]
      exact fun hh => hh.elim hnst (nl _)

end Paramz.Names

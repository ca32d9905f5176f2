import Verif.Cache.Model

/-! Cache ids are unambiguous. -/

namespace Paramz.Cache

theorem digitChar_inj {m n : Nat} (hm : m < 16) (hn : n < 16) (h : m.digitChar = n.digitChar) :
    m = n := by
  have : ∀ m < 16, ∀ n < 16, m.digitChar = n.digitChar → m = n := by decide
  exact this m hm n hn h

theorem toDigits_injective : ∀ (m n : Nat), Nat.toDigits 16 m = Nat.toDigits 16 n → m = n := by
  intro m
  induction m using Nat.strongRecOn with
  | ind m ih =>
    intro n h
    rw [Nat.toDigits_eq_if (by decide) (n := m), Nat.toDigits_eq_if (by decide) (n := n)] at h
    split at h <;> split at h
    · rename_i h1 h2
      exact digitChar_inj h1 h2 (by simpa using h)
    · exact absurd (congrArg List.length h) (by
        have := Nat.length_toDigits_pos (b := 16) (n := n / 16); simp)
    · exact absurd (congrArg List.length h) (by
        have := Nat.length_toDigits_pos (b := 16) (n := m / 16); simp)
    · rename_i h1 h2
      obtain ⟨ha, hb⟩ := List.append_inj' h rfl
      have h3 := ih (m / 16) (by omega) _ ha
      have h4 := digitChar_inj (Nat.mod_lt _ (by decide)) (Nat.mod_lt _ (by decide)) (by simpa using hb)
      omega

theorem x_notin_toDigits : ∀ (n : Nat), 'x' ∉ Nat.toDigits 16 n := by
  intro n
  induction n using Nat.strongRecOn with
  | ind n ih =>
    rw [Nat.toDigits_eq_if (by decide)]
    split
    · intro h
      exact Nat.digitChar_ne 'x' (by decide) (List.mem_singleton.mp h).symm
    · intro h
      rcases List.mem_append.mp h with h | h
      · exact ih (n / 16) (by omega) h
      · exact Nat.digitChar_ne 'x' (by decide) (List.mem_singleton.mp h).symm

theorem hexId_injective {a b : Nat} (h : hexId a = hexId b) : a = b := by
  simp only [hexId, List.cons.injEq, true_and] at h
  exact toDigits_injective _ _ h

/-- Text up to the next `x`, and from it on. -/
theorem split_x {p q : List Char} (hp : 'x' ∉ p) (r : List Char) (hq : q = p ++ r) :
    q.takeWhile (fun c => !decide (c = 'x')) = p ++ r.takeWhile (fun c => !decide (c = 'x')) ∧
    q.dropWhile (fun c => !decide (c = 'x')) = r.dropWhile (fun c => !decide (c = 'x')) := by
  have h : ∀ c ∈ p, (!decide (c = 'x')) = true := by
    intro c hc
    have : c ≠ 'x' := fun e => hp (e ▸ hc)
    simp [this]
  subst hq
  exact ⟨List.takeWhile_append_of_pos h, List.dropWhile_append_of_pos h⟩

theorem prepareId_cons (a : Nat) (r : List Nat) :
    prepareId (a :: r) = '0' :: 'x' :: (Nat.toDigits 16 a ++ prepareId r) := by
  simp [prepareId, hexId]

theorem prepareId_injective : ∀ (l m : List Nat), prepareId l = prepareId m → l = m := by
  intro l
  induction l with
  | nil =>
    intro m h
    cases m with
    | nil => rfl
    | cons b m => rw [prepareId_cons] at h; simp [prepareId] at h
  | cons a l ih =>
    intro m h
    cases m with
    | nil => rw [prepareId_cons] at h; simp [prepareId] at h
    | cons b m =>
      rw [prepareId_cons, prepareId_cons] at h
      have h' := (List.cons.inj (List.cons.inj h).2).2
      have ha := split_x (x_notin_toDigits a) (prepareId l) rfl
      have hb := split_x (x_notin_toDigits b) (prepareId m) rfl
      have e1 := ha.1.symm.trans ((congrArg _ h').trans hb.1)
      have e2 := ha.2.symm.trans ((congrArg _ h').trans hb.2)
      cases l with
      | nil =>
        cases m with
        | nil =>
          simp [prepareId] at e1
          rw [toDigits_injective _ _ e1]
        | cons c m =>
          rw [prepareId_cons] at e2
          simp [prepareId] at e2
      | cons c l =>
        cases m with
        | nil =>
          rw [prepareId_cons] at e2
          simp [prepareId] at e2
        | cons d m =>
          rw [prepareId_cons c l, prepareId_cons d m] at e1
          simp at e1
          have hab := toDigits_injective _ _ e1
          subst hab
          rw [ih (d :: m) (List.append_cancel_left h')]

end Paramz.Cache

import Mathlib.Algebra.Order.Floor.Ring
import Mathlib.Data.Rat.Floor
import Mathlib.Algebra.Order.Archimedean.Basic
import Mathlib.Tactic.Linarith
import Mathlib.Tactic.NormNum
import Mathlib.Tactic.Ring
import Mathlib.Tactic.FieldSimp

/-!
# Progress times (C51)

Source: `paramz/optimization/verbose_optimization.py:120-139`. Times are elements of an ordered field with
floors, so rounding of floating point numbers is left out.
-/

namespace Paramz.Run.Time

variable {K : Type} [Field K] [LinearOrder K] [IsStrictOrderedRing K] [FloorRing K]

/-- `'{:0>2d}'.format(n)` for `n` not negative. -/
def pad (n : Nat) : List Char :=
  List.replicate (2 - (Nat.toDigits 10 n).length) '0' ++ Nat.toDigits 10 n

/-- `int(x)` for `x` not negative. -/
def int (x : K) : Nat := ⌊x⌋.toNat

/-- `divmod(x, n)`: the quotient, still a float. -/
def quot (x n : K) : K := (⌊x / n⌋ : K)

/-- `divmod(x, n)`: the remainder; also `x % n`. -/
def rem (x n : K) : K := x - n * quot x n

/-- The time string (verbose_optimization.py:121-139). -/
def show' (seconds : K) : List Char :=
  if seconds < 60 then
    let ms := rem seconds 1 * 100
    pad (int seconds) ++ 's' :: pad (int ms)
  else
    let m := quot seconds 60
    let s := rem seconds 60
    if 59 < m then
      let h := quot m 60
      let m := rem m 60
      if 23 < h then
        let d := quot h 24
        let h := rem h 24
        pad (int d) ++ 'd' :: (pad (int h) ++ 'h' :: pad (int m))
      else pad (int h) ++ 'h' :: (pad (int m) ++ 'm' :: pad (int s))
    else
      let ms := rem seconds 1 * 100
      pad (int m) ++ 'm' :: (pad (int s) ++ 's' :: pad (int ms))

/-! ### Specification: reading a time -/

/-- The seconds a unit stands for. -/
def unit : Char → Option Nat
  | 'd' => some 86400
  | 'h' => some 3600
  | 'm' => some 60
  | 's' => some 1
  | _ => none

/-- A text cut at its letters: the numbers before letters with their letters, and the number at the end. -/
def tokens : List Char → List Char → List (Nat × Char) × Nat
  | acc, [] => ([], Nat.ofDigitChars 10 acc.reverse 0)
  | acc, c :: t =>
    if c.isDigit then tokens (c :: acc) t
    else
      let r := tokens [] t
      ((Nat.ofDigitChars 10 acc.reverse 0, c) :: r.1, r.2)

/-- The seconds of the last number, which has the next smaller unit: hours after days, minutes after hours,
seconds after minutes, hundredths after seconds. -/
def below (K : Type) [Field K] : Char → K
  | 'd' => 3600
  | 'h' => 60
  | 'm' => 1
  | _ => 1 / 100

/-- A text reads as the seconds `v` with resolution `r`. -/
def Reads (K : Type) [Field K] (t : List Char) (v r : K) : Prop :=
  ∃ A a c n, tokens [] t = (A ++ [(a, c)], n) ∧ r = below K c ∧
    v = ((A ++ [(a, c)]).map (fun e => (e.1 * (unit e.2).getD 0 : K))).sum + n * r

/-- Every number but the first is below the number of its units in the next larger one: hours below 24,
minutes and seconds below 60, hundredths below 100. The first, unless it is days, too. -/
def InRange (t : List Char) : Prop :=
  (∀ e ∈ (tokens [] t).1, (e.2 = 'h' → e.1 < 24) ∧ (e.2 = 'm' → e.1 < 60) ∧ (e.2 = 's' → e.1 < 60)) ∧
  ∀ e, (tokens [] t).1.getLast? = some e →
    (e.2 = 'd' → (tokens [] t).2 < 24) ∧ (e.2 = 'h' → (tokens [] t).2 < 60) ∧ (e.2 = 'm' → (tokens [] t).2 < 60) ∧
    (e.2 = 's' → (tokens [] t).2 < 100)

/-! ### Properties -/

theorem pad_digits (n : Nat) : ∀ c ∈ pad n, c.isDigit = true := by
  intro c hc
  rcases List.mem_append.mp hc with h | h
  · rw [(List.mem_replicate.mp h).2]; rfl
  · exact Nat.isDigit_of_mem_toDigits (by decide) (by decide) h

theorem ofDigits_pad (n : Nat) : Nat.ofDigitChars 10 (pad n) 0 = n := by
  unfold pad
  rw [Nat.ofDigitChars_append, Nat.ofDigitChars_replicate_zero, Nat.mul_zero, Nat.ofDigitChars_ten_toDigits]

theorem tokens_digits : ∀ (l acc t : List Char), (∀ c ∈ l, c.isDigit = true) →
    tokens acc (l ++ t) = tokens (l.reverse ++ acc) t
  | [], acc, t, _ => rfl
  | c :: l, acc, t, h => by
    rw [List.cons_append, tokens, if_pos (h c List.mem_cons_self),
      tokens_digits l (c :: acc) t (fun x hx => h x (List.mem_cons_of_mem _ hx))]
    simp

theorem tokens_pad (n : Nat) (c : Char) (hc : c.isDigit = false) (t : List Char) :
    tokens [] (pad n ++ c :: t) = ((n, c) :: (tokens [] t).1, (tokens [] t).2) := by
  rw [tokens_digits _ _ _ (pad_digits n), tokens, if_neg (by rw [hc]; exact Bool.false_ne_true)]
  simp only [List.append_nil, List.reverse_reverse, ofDigits_pad]

theorem tokens_last (n : Nat) : tokens [] (pad n) = ([], n) := by
  have := tokens_digits (pad n) [] [] (pad_digits n)
  rw [List.append_nil] at this
  rw [this, tokens, List.append_nil, List.reverse_reverse, ofDigits_pad]

theorem int_le (x : K) (hx : 0 ≤ x) : (int x : K) ≤ x := by
  unfold int
  have h : (0 : ℤ) ≤ ⌊x⌋ := Int.floor_nonneg.mpr hx
  have e : ((⌊x⌋.toNat : ℕ) : K) = ((⌊x⌋ : ℤ) : K) := by
    have : ((⌊x⌋.toNat : ℕ) : ℤ) = ⌊x⌋ := Int.toNat_of_nonneg h
    exact_mod_cast congrArg (fun z : ℤ => (z : K)) this
  rw [e]; exact Int.floor_le x

theorem lt_int (x : K) (hx : 0 ≤ x) : x < int x + 1 := by
  unfold int
  have h : (0 : ℤ) ≤ ⌊x⌋ := Int.floor_nonneg.mpr hx
  have e : ((⌊x⌋.toNat : ℕ) : K) = ((⌊x⌋ : ℤ) : K) := by
    have : ((⌊x⌋.toNat : ℕ) : ℤ) = ⌊x⌋ := Int.toNat_of_nonneg h
    exact_mod_cast congrArg (fun z : ℤ => (z : K)) this
  rw [e]; exact Int.lt_floor_add_one x

theorem int_lt (x : K) (hx : 0 ≤ x) (n : Nat) (h : x < n) : int x < n := by
  have := lt_of_le_of_lt (int_le x hx) h
  exact_mod_cast this

theorem rem_nonneg (x : K) {n : K} (hn : 0 < n) : 0 ≤ rem x n := by
  unfold rem quot
  have h := Int.floor_le (x / n)
  have := mul_le_mul_of_nonneg_left h hn.le
  rw [mul_div_cancel₀ _ hn.ne'] at this
  linarith

theorem rem_lt (x : K) {n : K} (hn : 0 < n) : rem x n < n := by
  unfold rem quot
  have h := Int.lt_floor_add_one (x / n)
  have := mul_lt_mul_of_pos_left h hn
  rw [mul_div_cancel₀ _ hn.ne'] at this
  linarith

theorem quot_nonneg (x : K) {n : K} (hx : 0 ≤ x) (hn : 0 < n) : 0 ≤ quot x n := by
  unfold quot
  exact_mod_cast Int.floor_nonneg.mpr (div_nonneg hx hn.le)

/-- A value that is a whole number. -/
def Whole (x : K) : Prop := ∃ n : ℕ, x = n

theorem quot_whole (x : K) {n : K} (hx : 0 ≤ x) (hn : 0 < n) : Whole (quot x n) := by
  refine ⟨⌊x / n⌋.toNat, ?_⟩
  unfold quot
  have : ((⌊x / n⌋.toNat : ℕ) : ℤ) = ⌊x / n⌋ := Int.toNat_of_nonneg (Int.floor_nonneg.mpr (div_nonneg hx hn.le))
  exact_mod_cast (congrArg (fun z : ℤ => (z : K)) this).symm

theorem int_whole {x : K} (h : Whole x) : (int x : K) = x := by
  obtain ⟨n, rfl⟩ := h
  unfold int
  rw [Int.floor_natCast]; rfl

theorem rem_whole {x : K} (k : ℕ) (hk : 0 < k) (h : Whole x) : Whole (rem x (k : K)) := by
  obtain ⟨n, rfl⟩ := h
  refine ⟨n % k, ?_⟩
  unfold rem quot
  have hkK : (0 : K) < k := by exact_mod_cast hk
  have e : (n : K) = k * ((n / k : ℕ) : K) + ((n % k : ℕ) : K) := by exact_mod_cast (Nat.div_add_mod n k).symm
  have hlt : ((n % k : ℕ) : K) < k := by exact_mod_cast Nat.mod_lt n hk
  have h0 : (0 : K) ≤ ((n % k : ℕ) : K) := Nat.cast_nonneg _
  have : ⌊(n : K) / (k : K)⌋ = ((n / k : ℕ) : ℤ) := by
    rw [Int.floor_eq_iff, le_div_iff₀ hkK, div_lt_iff₀ hkK]
    rw [Int.cast_natCast]
    constructor <;> linarith
  rw [this, Int.cast_natCast]
  linarith

omit [IsStrictOrderedRing K] in
theorem split (x n : K) : x = n * quot x n + rem x n := by unfold rem; ring

/-- The time shown, read back, is the elapsed time up to the resolution, and its components are in range. -/
theorem time_roundtrip (t : K) (ht : 0 ≤ t) :
    InRange (show' t) ∧ ∃ v r, Reads K (show' t) v r ∧ v ≤ t ∧ t < v + r := by
  have hfr : ∀ x : K, 0 ≤ rem x 1 * 100 ∧ rem x 1 * 100 < 100 := fun x =>
    ⟨mul_nonneg (rem_nonneg x one_pos) (by norm_num), by have := rem_lt x (one_pos : (0:K) < 1); linarith⟩
  unfold show'
  split
  · rename_i h60
    have e : tokens [] (pad (int t) ++ 's' :: pad (int (rem t 1 * 100))) = ([(int t, 's')], int (rem t 1 * 100)) := by
      rw [tokens_pad _ _ rfl, tokens_last]
    have e0 : (int t : K) = quot t 1 := by
      unfold int quot
      rw [div_one]
      have : ((⌊t⌋.toNat : ℕ) : ℤ) = ⌊t⌋ := Int.toNat_of_nonneg (Int.floor_nonneg.mpr ht)
      exact_mod_cast congrArg (fun z : ℤ => (z : K)) this
    refine ⟨?_, int t + int (rem t 1 * 100) * (1 / 100), 1 / 100, ⟨[], int t, 's', _, e, rfl, ?_⟩, ?_, ?_⟩
    · unfold InRange
      simp only [e]
      have h1 : int t < 60 := int_lt t ht 60 (by exact_mod_cast h60)
      have h2 : int (rem t 1 * 100) < 100 := int_lt _ (hfr t).1 100 (by exact_mod_cast (hfr t).2)
      simp [h1, h2]
    · simp [unit]
    · have h1 := int_le _ (hfr t).1
      have h2 := split t 1
      rw [e0]; linarith
    · have h1 := lt_int _ (hfr t).1
      have h2 := split t 1
      rw [e0]; linarith
  · rename_i h60
    have h60 : 60 ≤ t := le_of_not_gt h60
    have p60 : (0 : K) < 60 := by norm_num
    have p24 : (0 : K) < 24 := by norm_num
    have hm := quot_nonneg t ht p60
    have wm := quot_whole t ht p60
    have hs0 := rem_nonneg t p60
    have hs1 := rem_lt t p60
    have es := split t 60
    simp only
    split
    · rename_i h59
      have hh := quot_nonneg (quot t 60) hm p60
      have wh := quot_whole (quot t 60) hm p60
      have wm2 : Whole (rem (quot t 60) 60) := by
        have := rem_whole 60 (by decide) wm
        exact_mod_cast this
      have hm0 := rem_nonneg (quot t 60) p60
      have hm1 := rem_lt (quot t 60) p60
      have em := split (quot t 60) 60
      split
      · have wd := quot_whole (quot (quot t 60) 60) hh p24
        have wh2 : Whole (rem (quot (quot t 60) 60) 24) := by
          have := rem_whole 24 (by decide) wh
          exact_mod_cast this
        have hh0 := rem_nonneg (quot (quot t 60) 60) p24
        have hh1 := rem_lt (quot (quot t 60) 60) p24
        have eh := split (quot (quot t 60) 60) 24
        have e : tokens [] (pad (int (quot (quot (quot t 60) 60) 24)) ++ 'd' ::
            (pad (int (rem (quot (quot t 60) 60) 24)) ++ 'h' :: pad (int (rem (quot t 60) 60)))) =
            ([(int (quot (quot (quot t 60) 60) 24), 'd'), (int (rem (quot (quot t 60) 60) 24), 'h')],
              int (rem (quot t 60) 60)) := by
          rw [tokens_pad _ _ rfl, tokens_pad _ _ rfl, tokens_last]
        refine ⟨?_, _, 60, ⟨[(_, 'd')], _, 'h', _, e, rfl, rfl⟩, ?_, ?_⟩
        · unfold InRange
          simp only [e]
          have h1 : int (rem (quot (quot t 60) 60) 24) < 24 := int_lt _ hh0 24 (by exact_mod_cast hh1)
          have h2 : int (rem (quot t 60) 60) < 60 := int_lt _ hm0 60 (by exact_mod_cast hm1)
          simp [h1, h2]
        · simp [unit, int_whole wd, int_whole wh2, int_whole wm2]
          linarith
        · simp [unit, int_whole wd, int_whole wh2, int_whole wm2]
          linarith
      · rename_i h23
        have h24 : quot (quot t 60) 60 < 24 := by
          obtain ⟨k, hk⟩ := wh
          rw [hk] at h23 ⊢
          have : k ≤ 23 := by exact_mod_cast le_of_not_gt h23
          have : k < 24 := by omega
          exact_mod_cast this
        have e : tokens [] (pad (int (quot (quot t 60) 60)) ++ 'h' ::
            (pad (int (rem (quot t 60) 60)) ++ 'm' :: pad (int (rem t 60)))) =
            ([(int (quot (quot t 60) 60), 'h'), (int (rem (quot t 60) 60), 'm')], int (rem t 60)) := by
          rw [tokens_pad _ _ rfl, tokens_pad _ _ rfl, tokens_last]
        refine ⟨?_, _, 1, ⟨[(_, 'h')], _, 'm', _, e, rfl, rfl⟩, ?_, ?_⟩
        · unfold InRange
          simp only [e]
          have h1 : int (quot (quot t 60) 60) < 24 := int_lt _ hh 24 (by exact_mod_cast h24)
          have h2 : int (rem (quot t 60) 60) < 60 := int_lt _ hm0 60 (by exact_mod_cast hm1)
          have h3 : int (rem t 60) < 60 := int_lt _ hs0 60 (by exact_mod_cast hs1)
          simp [h1, h2, h3]
        · have := int_le _ hs0
          simp [unit, int_whole wh, int_whole wm2]
          linarith
        · have := lt_int _ hs0
          simp [unit, int_whole wh, int_whole wm2]
          linarith
    · rename_i h59
      have h60' : quot t 60 < 60 := by
        obtain ⟨k, hk⟩ := wm
        rw [hk] at h59 ⊢
        have : k ≤ 59 := by exact_mod_cast le_of_not_gt h59
        have : k < 60 := by omega
        exact_mod_cast this
      have e : tokens [] (pad (int (quot t 60)) ++ 'm' ::
          (pad (int (rem t 60)) ++ 's' :: pad (int (rem t 1 * 100)))) =
          ([(int (quot t 60), 'm'), (int (rem t 60), 's')], int (rem t 1 * 100)) := by
        rw [tokens_pad _ _ rfl, tokens_pad _ _ rfl, tokens_last]
      -- the fraction of the remainder is the fraction of the time
      have efr : rem (rem t 60) 1 = rem t 1 := by
        obtain ⟨k, hk⟩ := wm
        have : rem t 60 = t - (60 * k : ℕ) := by
          unfold rem; rw [hk]; push_cast; ring
        rw [this]
        unfold rem quot
        rw [div_one, div_one, Int.floor_sub_natCast]
        push_cast
        ring
      have e0 : (int (rem t 60) : K) = quot (rem t 60) 1 := by
        unfold int quot
        rw [div_one]
        have : ((⌊rem t 60⌋.toNat : ℕ) : ℤ) = ⌊rem t 60⌋ := Int.toNat_of_nonneg (Int.floor_nonneg.mpr hs0)
        exact_mod_cast congrArg (fun z : ℤ => (z : K)) this
      have e1 := split (rem t 60) 1
      rw [efr] at e1
      refine ⟨?_, _, 1 / 100, ⟨[(_, 'm')], _, 's', _, e, rfl, rfl⟩, ?_, ?_⟩
      · unfold InRange
        simp only [e]
        have h1 : int (quot t 60) < 60 := int_lt _ hm 60 (by exact_mod_cast h60')
        have h2 : int (rem t 60) < 60 := int_lt _ hs0 60 (by exact_mod_cast hs1)
        have h3 : int (rem t 1 * 100) < 100 := int_lt _ (hfr t).1 100 (by exact_mod_cast (hfr t).2)
        simp [h1, h2, h3]
      · have := int_le _ (hfr t).1
        simp [unit, int_whole wm, e0]
        linarith
      · have := lt_int _ (hfr t).1
        simp [unit, int_whole wm, e0]
        linarith

example : show' (59.999 : ℚ) = "59s99".toList ∧ show' (60 : ℚ) = "01m00s00".toList ∧
    show' (3599.5 : ℚ) = "59m59s50".toList ∧ show' (86399 : ℚ) = "23h59m59".toList ∧
    show' (8640000 + 7384 : ℚ) = "100d02h03".toList := by decide +kernel

end Paramz.Run.Time

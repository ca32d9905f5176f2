import Verif.Observer.Props
import Mathlib.Data.List.SplitOn

/-!
# C104: what `len`, `[]` and `str` of an observer list say
-/

namespace Paramz.Observer

variable {K : Type} [LinearOrder K]

/-! ### Model -/

/-- `ObserverList.__len__` (lists_and_dicts.py:140-142). -/
def len (s : St K) : St K × Nat :=
  let s := flush s
  (s, s.poc.length)

/-- `ObserverList.__getitem__` with an integer (lists_and_dicts.py:74-76): `none` for `IndexError`; an observer that
no longer exists is given as `None`. Dead observers are not flushed. -/
def getItem (s : St K) (i : Int) : Option (K × Option Nat × Nat) :=
  let j := if i < 0 then i + s.poc.length else i
  if j < 0 then none
  else (s.poc[j.toNat]?).map fun e => (e.prio, if s.alive e.obs then some e.obs else none, e.cb)

/-- How things are printed: priorities by `'{!s}'`, observers by `frmt` (lists_and_dicts.py:110-116), callbacks by
`str`. -/
structure Fmt (K : Type) where
  prio : K → List Char
  obs : Nat → List Char
  cb : Nat → List Char

/-- `", ".join([frmt(o), str(c)])` (lists_and_dicts.py:126). -/
def Fmt.entry (f : Fmt K) (e : Entry K) : List Char := f.obs e.obs ++ ", ".toList ++ f.cb e.cb

/-- The loop of `__str__` (lists_and_dicts.py:117-126), with `curr_p` and `pre` (no value yet before the first
round). -/
def rows (f : Fmt K) : Option (K × List Char) → List (Entry K) → List (List Char)
  | _, [] => []
  | none, e :: l =>
    let pre := f.prio e.prio ++ ": ".toList
    (pre ++ f.entry e) :: rows f (some (e.prio, pre)) l
  | some (p, pre), e :: l =>
    if p ≠ e.prio then
      let pre := f.prio e.prio ++ ": ".toList
      (pre ++ f.entry e) :: rows f (some (e.prio, pre)) l
    else (List.replicate pre.length ' ' ++ f.entry e) :: rows f (some (e.prio, pre)) l

/-- `ObserverList.__str__` (lists_and_dicts.py:103-127); iterating flushes. Not modelled: a first priority `None`
(`pre` would have no value). -/
def str (f : Fmt K) (s : St K) : St K × List Char :=
  let s := flush s
  (s, ['\n'].intercalate (rows f none s.poc))

/-! ### Specification -/

namespace Spec

/-- Line `i` of the listing of `called`: the first of a priority shows it, the others are indented as far. -/
def line (f : Fmt K) (called : List (Entry K)) (i : Nat) (e : Entry K) : List Char :=
  let head := f.prio e.prio ++ ": ".toList
  (if 0 < i ∧ (called[i - 1]?).map (·.prio) = some e.prio then List.replicate head.length ' ' else head) ++
    (f.obs e.obs ++ ", ".toList ++ f.cb e.cb)

/-- Texts that can be told apart: different priorities are printed differently, without colons, blanks and line breaks;
different registrations differently, without line breaks. -/
structure Clear (f : Fmt K) : Prop where
  prio : ∀ p q, f.prio p = f.prio q → p = q
  plain : ∀ p, ':' ∉ f.prio p ∧ ' ' ∉ f.prio p ∧ '\n' ∉ f.prio p
  pair : ∀ o c o' c', f.obs o ++ ", ".toList ++ f.cb c = f.obs o' ++ ", ".toList ++ f.cb c' → o = o' ∧ c = c'
  obs : ∀ o, '\n' ∉ f.obs o
  cb : ∀ c, '\n' ∉ f.cb c

end Spec

/-! ### Proofs -/

/-- What `pre` is when `curr_p` is `p`. -/
def headOf (f : Fmt K) (c : Option K) : Option (K × List Char) := c.map fun p => (p, f.prio p ++ ": ".toList)

theorem rows_cons (f : Fmt K) (c : Option K) (e : Entry K) (l : List (Entry K)) :
    rows f (headOf f c) (e :: l) =
      ((if c = some e.prio then List.replicate (f.prio e.prio ++ ": ".toList).length ' '
        else f.prio e.prio ++ ": ".toList) ++ f.entry e) :: rows f (headOf f (some e.prio)) l := by
  cases c with
  | none => simp [rows, headOf]
  | some p =>
    by_cases h : p = e.prio
    · subst h
      simp [rows, headOf]
    · simp [rows, headOf, h]

theorem rows_length (f : Fmt K) : ∀ (l : List (Entry K)) (c : Option K), (rows f (headOf f c) l).length = l.length
  | [], c => by cases c <;> rfl
  | e :: l, c => by rw [rows_cons, List.length_cons, rows_length f l, List.length_cons]

theorem rows_get (f : Fmt K) : ∀ (l : List (Entry K)) (c : Option K) (i : Nat) (e : Entry K), l[i]? = some e →
    (rows f (headOf f c) l)[i]? = some
      ((if (i = 0 ∧ c = some e.prio) ∨ (0 < i ∧ (l[i - 1]?).map (·.prio) = some e.prio)
        then List.replicate (f.prio e.prio ++ ": ".toList).length ' '
        else f.prio e.prio ++ ": ".toList) ++ f.entry e)
  | [], _, _, _, h => by simp at h
  | a :: l, c, 0, e, h => by
    rw [List.getElem?_cons_zero, Option.some.injEq] at h
    subst h
    rw [rows_cons, List.getElem?_cons_zero]
    congr 2
    simp
  | a :: l, c, i + 1, e, h => by
    rw [List.getElem?_cons_succ] at h
    rw [rows_cons, List.getElem?_cons_succ, rows_get f l (some a.prio) i e h]
    congr 3
    cases i with
    | zero => simp
    | succ i => simp

/-- **C104.** After any history the printed list has one line for every registration that can be called, in the order
in which they are called, with the priority at the first of each and the others indented as far; `len` is their
number, and `observers[i]`, asked for after `len` or `str`, is the `i`-th of them, `observers[-i]` the `i`-th from the end. Missing:
`observers[i]` at any other time (`getitem_dead_fails`). -/
theorem printed_list_partial (f : Fmt K) (l : List (Edit K)) : ∃ called,
    Spec.CallOrder (Spec.edits Spec.init l).live called ∧
    ((Spec.edits Spec.init l).on = true → ∀ react, ∃ N, ∀ fuel, N ≤ fuel → ∃ s',
      notify react none fuel (edits init l) = some (s', called)) ∧
    (∃ lines : List (List Char), (str f (edits init l)).2 = ['\n'].intercalate lines ∧ lines.length = called.length ∧
      ∀ i e, called[i]? = some e → lines[i]? = some (Spec.line f called i e)) ∧
    (len (edits init l)).2 = called.length ∧
    ∀ s', s' = (len (edits init l)).1 ∨ s' = (str f (edits init l)).1 →
      (∀ i : Nat, getItem s' i = (called[i]?).map fun e => (e.prio, some e.obs, e.cb)) ∧
      (∀ i : Nat, 0 < i → getItem s' (-i) =
        (if i ≤ called.length then called[called.length - i]? else none).map fun e => (e.prio, some e.obs, e.cb)) := by
  have hI := (Inv.init (K := K)).edits l
  have hfl : (flush (edits init l)).poc = (edits (init : St K) l).poc.filter (fun e => (edits (init : St K) l).alive e.obs) :=
    poc_flush _
  have hal : ∀ e ∈ (flush (edits (init : St K) l)).poc, (flush (edits (init : St K) l)).alive e.obs = true := by
    intro e he
    rw [hfl] at he
    rw [alive_flush]
    exact (List.mem_filter.mp he).2
  refine ⟨(flush (edits init l)).poc, hI.callOrder, ?_, ⟨rows f none (flush (edits init l)).poc, rfl, ?_, ?_⟩, rfl, ?_⟩
  · intro hon react
    refine ⟨(edits init l).poc.length + 1, fun fuel hf => ?_⟩
    rw [notify_eq react none _ fuel (by omega), hI.on, if_pos hon]
    exact ⟨_, rfl⟩
  · exact rows_length f _ none
  · intro i e he
    rw [show (none : Option (K × List Char)) = headOf f none from rfl, rows_get f _ none i e he]
    simp only [Spec.line, reduceCtorEq, and_false, false_or]
    rfl
  · intro s' hs'
    have hs' : s' = flush (edits init l) := by rcases hs' with h | h <;> exact h
    rw [hs']
    have key : ∀ k : Nat, ((flush (edits init l)).poc[k]?).map (fun e => (e.prio,
        if (flush (edits init l)).alive e.obs then some e.obs else none, e.cb)) =
        ((flush (edits (init : St K) l)).poc[k]?).map (fun e => (e.prio, some e.obs, e.cb)) := by
      intro k
      cases hk : (flush (edits (init : St K) l)).poc[k]? with
      | none => rfl
      | some e =>
        have := hal e (List.mem_of_getElem? hk)
        simp only [Option.map_some, this, if_true]
    constructor
    · intro i
      unfold getItem
      simp only []
      rw [if_neg (by omega : ¬ (i : Int) < 0), if_neg (by omega : ¬ (i : Int) < 0), Int.toNat_natCast]
      exact key i
    · intro i hi
      unfold getItem
      simp only []
      rw [if_pos (by omega : (-(i : Int)) < 0)]
      by_cases hle : i ≤ (flush (edits init l)).poc.length
      · rw [if_neg (by omega), if_pos hle,
          show (-(i : Int) + ((flush (edits init l)).poc.length : Int)).toNat = (flush (edits init l)).poc.length - i by omega]
        exact key _
      · rw [if_pos (by omega), if_neg hle]
        rfl

theorem append_colon {a b x y : List Char} (ha : ':' ∉ a) (hb : ':' ∉ b) (h : a ++ ':' :: x = b ++ ':' :: y) : a = b ∧ x = y := by
  induction a generalizing b with
  | nil =>
    cases b with
    | nil => simpa using h
    | cons c b =>
      simp only [List.nil_append, List.cons_append, List.cons.injEq] at h
      exact absurd (by rw [h.1]; exact List.mem_cons_self ..) hb
  | cons c a ih =>
    cases b with
    | nil =>
      simp only [List.nil_append, List.cons_append, List.cons.injEq] at h
      exact absurd (by rw [← h.1]; exact List.mem_cons_self ..) ha
    | cons d b =>
      simp only [List.cons_append, List.cons.injEq] at h
      obtain ⟨h1, h2⟩ := ih (fun m => ha (List.mem_cons_of_mem _ m)) (fun m => hb (List.mem_cons_of_mem _ m)) h.2
      exact ⟨by rw [h.1, h1], h2⟩

omit [LinearOrder K] in
theorem head_ne_blank {f : Fmt K} (hf : Spec.Clear f) (p : K) (n : Nat) (x y : List Char) :
    (f.prio p ++ ": ".toList) ++ x ≠ List.replicate (n + 1) ' ' ++ y := by
  intro h
  have hp := (hf.plain p).2.1
  cases hq : f.prio p with
  | nil =>
    rw [hq, List.replicate_succ] at h
    simp at h
  | cons c r =>
    rw [hq, List.replicate_succ] at h
    simp only [List.cons_append, List.cons.injEq] at h
    rw [hq, h.1] at hp
    exact hp (List.mem_cons_self ..)

theorem rows_inj {f : Fmt K} (hf : Spec.Clear f) : ∀ (A B : List (Entry K)) (c : Option K),
    rows f (headOf f c) A = rows f (headOf f c) B → A = B
  | [], [], _, _ => rfl
  | [], b :: B, c, h => by
    have := congrArg List.length h
    rw [rows_length, rows_length] at this
    simp at this
  | a :: A, [], c, h => by
    have := congrArg List.length h
    rw [rows_length, rows_length] at this
    simp at this
  | a :: A, b :: B, c, h => by
    rw [rows_cons, rows_cons, List.cons.injEq] at h
    obtain ⟨h1, h2⟩ := h
    have hl : ∀ p : K, (f.prio p ++ ": ".toList).length = ((f.prio p).length + 1) + 1 := fun p => by simp
    have e : a = b := by
      have hpo : a.prio = b.prio ∧ f.entry a = f.entry b := by
        by_cases ha : c = some a.prio
        · by_cases hb : c = some b.prio
          · have hp : a.prio = b.prio := by
              rw [ha] at hb
              exact Option.some.inj hb
            rw [if_pos ha, if_pos hb, hp] at h1
            exact ⟨hp, List.append_cancel_left h1⟩
          · rw [if_pos ha, if_neg hb, hl] at h1
            exact absurd h1.symm (head_ne_blank hf _ _ _ _)
        · by_cases hb : c = some b.prio
          · rw [if_neg ha, if_pos hb, hl] at h1
            exact absurd h1 (head_ne_blank hf _ _ _ _)
          · rw [if_neg ha, if_neg hb] at h1
            have h3 : f.prio a.prio ++ ':' :: (' ' :: f.entry a) = f.prio b.prio ++ ':' :: (' ' :: f.entry b) := by
              simpa using h1
            obtain ⟨h4, h5⟩ := append_colon (hf.plain _).1 (hf.plain _).1 h3
            exact ⟨hf.prio _ _ h4, (List.cons.inj h5).2⟩
      obtain ⟨h3, h4⟩ := hpo
      obtain ⟨h5, h6⟩ := hf.pair _ _ _ _ h4
      cases a; cases b
      simp only at h3 h5 h6
      rw [h3, h5, h6]
    subst e
    rw [rows_inj hf A B _ h2]

theorem rows_plain {f : Fmt K} (hf : Spec.Clear f) : ∀ (A : List (Entry K)) (c : Option K),
    ∀ r ∈ rows f (headOf f c) A, '\n' ∉ r ∧ r ≠ []
  | [], c, r, hr => by cases c <;> exact absurd hr List.not_mem_nil
  | a :: A, c, r, hr => by
    rw [rows_cons] at hr
    rcases List.mem_cons.mp hr with rfl | hr
    · constructor
      · intro hm
        have h1 := (hf.plain a.prio).2.2
        have h2 := hf.obs a.obs
        have h3 := hf.cb a.cb
        unfold Fmt.entry at hm
        split at hm
        · simp [h2, h3] at hm
        · simp [h1, h2, h3] at hm
      · intro h
        have := congrArg List.length h
        simp [Fmt.entry] at this
    · exact rows_plain hf A _ r hr

theorem text_inj {f : Fmt K} (hf : Spec.Clear f) {A B : List (Entry K)}
    (h : ['\n'].intercalate (rows f none A) = ['\n'].intercalate (rows f none B)) : A = B := by
  have hn : (none : Option (K × List Char)) = headOf f none := rfl
  have pl := fun A => rows_plain hf A none
  have ne : ∀ (a : Entry K) (A : List (Entry K)), ['\n'].intercalate (rows f none (a :: A)) ≠ [] := by
    intro a A he
    rw [hn, rows_cons] at he
    have h1 := (pl (a :: A) _ (by rw [rows_cons]; exact List.mem_cons_self ..)).2
    cases hr : rows f (headOf f (some a.prio)) A with
    | nil => rw [hr] at he; simp [List.intercalate] at he
    | cons b r => rw [hr] at he; simp [List.intercalate] at he
  cases A with
  | nil =>
    cases B with
    | nil => rfl
    | cons b B => exact absurd h.symm (by simpa [rows, List.intercalate] using ne b B)
  | cons a A =>
    cases B with
    | nil => exact absurd h (by simpa [rows, List.intercalate] using ne a A)
    | cons b B =>
      refine rows_inj hf _ _ none ?_
      rw [← hn]
      have h1 := List.splitOn_intercalate '\n' (ls := rows f none (a :: A)) (fun r hr => (pl _ r hr).1)
        (by rw [hn, rows_cons]; simp)
      have h2 := List.splitOn_intercalate '\n' (ls := rows f none (b :: B)) (fun r hr => (pl _ r hr).1)
        (by rw [hn, rows_cons]; simp)
      rw [← h1, h, h2]

/-- **C104.** The printed list tells everything: two lists of observers with the same text, whatever their histories,
have the same registrations, in the same order of calling. -/
theorem printed_determines {f : Fmt K} (hf : Spec.Clear f) (l l' : List (Edit K))
    (h : (str f (edits init l)).2 = (str f (edits init l')).2) {called called' : List (Entry K)}
    (hc : Spec.CallOrder (Spec.edits Spec.init l).live called)
    (hc' : Spec.CallOrder (Spec.edits Spec.init l').live called') : called = called' := by
  have hI := (Inv.init (K := K)).edits l
  have hI' := (Inv.init (K := K)).edits l'
  rw [callOrder_unique hc hI.callOrder, callOrder_unique hc' hI'.callOrder]
  exact text_inj hf h

/-! ### Cases -/

/-- Numbers as strokes: clear texts. -/
def strokes : Fmt Nat where
  prio n := List.replicate n 'p'
  obs n := List.replicate n 'o'
  cb n := List.replicate n 'c'

theorem strokes_clear : Spec.Clear strokes := by
  have hc : ∀ n (a : Char) (b : Char), a ≠ b → b ∉ List.replicate n a := by
    intro n a b hab hm
    exact hab (List.eq_of_mem_replicate hm).symm
  refine ⟨?_, fun p => ⟨hc _ _ _ (by decide), hc _ _ _ (by decide), hc _ _ _ (by decide)⟩, ?_,
    fun o => hc _ _ _ (by decide), fun c => hc _ _ _ (by decide)⟩
  · intro p q h
    have := congrArg List.length h
    simpa [strokes] using this
  · intro o c o' c' h
    have h1 := congrArg (List.count 'o') h
    have h2 := congrArg (List.count 'c') h
    simp [strokes, List.count_replicate] at h1 h2
    exact ⟨h1, h2⟩

example : String.ofList (str strokes (edits init [.add 1 1 0, .add 2 2 3, .add 3 3 0, .changePriority 1 1 3])).2 =
    "ppp: oo, cc\n     o, c\n: ooo, ccc" := by decide +kernel

example (l : List (Edit Nat)) (h : (str strokes (edits init l)).2 = "p: o, c".toList) {called : List (Entry Nat)}
    (hc : Spec.CallOrder (Spec.edits Spec.init l).live called) : called = [⟨1, 1, 1⟩] := by
  refine printed_determines strokes_clear l [.add 1 1 1] (h.trans (by decide +kernel)) hc ⟨by simp, fun q => rfl⟩

/-- **C104.** `observers[i]` does not look whether observers still exist: directly after an observer has gone,
`observers[0]` is a registration without observer and the numbers are those of the old list, although `len` is right. -/
theorem getitem_dead_fails : ∃ l : List (Edit Nat), (len (edits init l)).2 = 1 ∧
    getItem (edits init l) 0 = some (5, none, 10) ∧ getItem (edits init l) 1 = some (0, some 2, 20) ∧
    getItem (len (edits init l)).1 0 = some (0, some 2, 20) :=
  ⟨[.add 1 10 5, .add 2 20 0, .die 1], by decide +kernel⟩

/-- **C104.** A registration whose text has a line break (python prints a bound method with the text of its object,
and that of a `Param` has several lines, param.py:245) can look like two: the lists differ, the texts do not. -/
theorem printed_break_fails : ∃ (f : Fmt Nat) (l l' : List (Edit Nat)),
    (str f (edits init l)).2 = (str f (edits init l')).2 ∧ (len (edits init l)).2 ≠ (len (edits init l')).2 :=
  ⟨⟨fun _ => ['0'], fun _ => ['o'], fun c => if c = 0 then ['c'] else "c\n   o, c".toList⟩,
    [.add 1 0 0, .add 2 0 0], [.add 1 1 0], by decide +kernel⟩

end Paramz.Observer

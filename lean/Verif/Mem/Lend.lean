import Verif.Mem.Shared

/-!
# `Param`s made of an array of the user

Source: `paramz/param.py` (`Param.__new__`), `paramz/core/observable_array.py` (`ObsAr.__new__`).

`Verif.Mem.Model` gives every new `Param` a buffer of its own. In python a `Param` that is made of an array
of floats in C order, writeable, is a view on that array (`np.require` and `np.atleast_1d` then do not copy,
observable_array.py:61, and `view` never does). Here the user has such an array and may make any number of
`Param`s of it, between and beside all other calls.
-/

set_option linter.unusedSectionVars false

namespace Paramz.Memory

open Hier (Id Graph Heap upd upd_same upd_ne pick)
open Hier.Graph (Skel Sized At Anc)

variable {V T : Type} [DecidableEq T] (spoil : Nat → Nat → V)

/-- A step of a program that has an array `X`: a call or an assignment to an object; a copy; `Param(name, X)`;
`X[i] = v`. -/
inductive Deal (V T : Type)
  | call (e : State.Ev V T)
  | copy (x : Id)
  | make
  | poke (i : Nat) (v : V)

namespace State

/-- `X = np.array(vs, dtype=float)`: a new buffer that no object uses. -/
def buy (s : State V T) (vs : List V) (d : V) : State V T :=
  ⟨s.heap, { s.mem with
    cell := fun b i => if b = s.mem.next then vs.getD i d else s.mem.cell b i
    next := s.mem.next + 1 }⟩

/-- `Param(name, X)` of the array of length `n` that lies in buffer `b` (param.py:85-93,
observable_array.py:56-67): a new object whose memory is that of `X`, which it does not own. Simplified:
`X` is flat. -/
def make (s : State V T) (b n : Nat) : State V T :=
  ⟨s.heap.newParam n, { s.mem with
    arr := upd s.mem.arr s.heap.next (some ⟨b, 0, n⟩)
    owns := upd s.mem.owns s.heap.next false }⟩

/-- `X[i] = v`. `X` is a plain numpy array: nobody is told. -/
def poke (s : State V T) (b i : Nat) (v : V) : State V T :=
  ⟨s.heap, { s.mem with cell := fun b' j => if b' = b ∧ j = i then v else s.mem.cell b' j }⟩

/-- One step. Simplified: a call that raises is left as it is and the program goes on. -/
def deal (b n : Nat) (s : State V T) : Deal V T → State V T
  | .call e => (s.exec spoil e).1
  | .copy x => (s.copy spoil x).1
  | .make => s.make b n
  | .poke i v => s.poke b i v

/-- A program. -/
def deals (b n : Nat) (s : State V T) (ds : List (Deal V T)) : State V T := ds.foldl (deal spoil b n) s

/-- The steps considered: calls as everywhere, assignments inside the array. -/
def Legal (n : Nat) (s : State V T) : Deal V T → Prop
  | .call e => s.Admissible e
  | .copy x => s.heap.CopyOK x
  | .make => True
  | .poke i _ => i < n

/-- All steps of a program are of that kind when it comes to them. -/
def Legals (b n : Nat) : State V T → List (Deal V T) → Prop
  | _, [] => True
  | s, d :: ds => s.Legal n d ∧ Legals b n (s.deal spoil b n d) ds

/-- The `Param`s that have been made of the array, after one more step. -/
def grows (s : State V T) (Y : List Id) : Deal V T → List Id
  | .make => s.heap.next :: Y
  | _ => Y

/-- The states of programs that own the array of length `n` in buffer `b` and have made the `Param`s `Y` of
it: any program without such an array, then the array, then any steps. -/
inductive Owned (b n : Nat) : State V T → List Id → Prop
  | buy {s : State V T} (vs : List V) (d : V) : Reach spoil s → b = s.mem.next → n = vs.length →
      Owned b n (s.buy vs d) []
  | step {s : State V T} {Y : List Id} {d : Deal V T} : Owned b n s Y → s.Legal n d →
      Owned b n (s.deal spoil b n d) (s.grows Y d)

end State

/-! ### What connecting does to a buffer that only `Param`s hold -/

namespace Mem

/-- The buffer `b` is held by objects of `Y` only, and they do not own it. -/
structure Held (b : Nat) (Y : Id → Prop) (m : Mem V) : Prop where
  lt : b < m.next
  pos : b ≠ 0
  hold : ∀ z, (m.view z).buf = b → Y z ∧ m.owns z = false

/-- The same memory with other contents of `b`. -/
def blur (b : Nat) (c : Nat → V) (m : Mem V) : Mem V :=
  { m with cell := fun b' i => if b' = b then c i else m.cell b' i }

/-- `f` leaves the contents of `b` alone, gives it to nobody, and does not look at it if nobody holds it. -/
def Tame (b : Nat) (Y : Id → Prop) (f : Mem V → Mem V) (m : Mem V) : Prop :=
  Held b Y m → Held b Y (f m) ∧ (∀ i, (f m).cell b i = m.cell b i) ∧
    (∀ z, ((f m).view z).buf = b → (m.view z).buf = b) ∧
    ((∀ z, ¬ Y z) → ∀ c, f (m.blur b c) = (f m).blur b c)

variable {b : Nat} {Y : Id → Prop} {g : Graph}

theorem Tame.comp {f f' : Mem V → Mem V} {m : Mem V} (h : Tame b Y f m) (h' : Tame b Y f' (f m)) :
    Tame b Y (fun m => f' (f m)) m := by
  intro hm
  obtain ⟨a1, a2, a3, a4⟩ := h hm
  obtain ⟨b1, b2, b3, b4⟩ := h' a1
  refine ⟨b1, fun i => (b2 i).trans (a2 i), fun z hz => a3 z (b3 z hz), fun hY c => ?_⟩
  show f' (f (m.blur b c)) = _
  rw [a4 hY c, b4 hY c]

theorem Tame.id (m : Mem V) : Tame b Y (fun m => m) m :=
  fun hm => ⟨hm, fun _ => rfl, fun _ h => h, fun _ _ => rfl⟩

theorem alloc_tame (m : Mem V) (x : Id) (n : Nat) : Tame b Y (fun m => m.alloc x n) m := by
  intro hm
  have hv : ∀ z, ((m.alloc x n).view z).buf = b → z ≠ x ∧ (m.view z).buf = b := by
    intro z hz
    by_cases hzx : z = x
    · subst hzx
      have : ((m.alloc z n).view z).buf = m.next := by
        show ((upd m.arr z _ z).getD _).buf = _
        rw [upd_same]; rfl
      have := hm.lt
      omega
    · refine ⟨hzx, ?_⟩
      have e : (m.alloc x n).view z = m.view z := by
        show (upd m.arr x _ z).getD _ = _
        rw [upd_ne _ _ hzx]; rfl
      rw [← e]; exact hz
  refine ⟨⟨Nat.lt_succ_of_lt hm.lt, hm.pos, fun z hz => ?_⟩, fun _ => rfl, fun z hz => (hv z hz).2,
    fun _ _ => rfl⟩
  obtain ⟨h1, h2⟩ := hv z hz
  refine ⟨(hm.hold z h2).1, ?_⟩
  show upd m.owns x true z = false
  rw [upd_ne _ _ h1]; exact (hm.hold z h2).2

theorem ensure_tame (m : Mem V) (x : Id) : Tame b Y (fun m => m.ensure g x) m := by
  intro hm
  unfold ensure
  cases hl : g.leaf x with
  | true => exact ⟨hm, fun _ => rfl, fun _ h => h, fun _ _ => by simp⟩
  | false =>
    simp only [Bool.false_eq_true, if_false]
    cases ha : m.arr x with
    | none =>
      obtain ⟨a1, a2, a3, a4⟩ := alloc_tame m x (g.size x) hm
      refine ⟨a1, a2, a3, fun hY c => ?_⟩
      have : (m.blur b c).arr x = none := ha
      simp only [this]
      exact a4 hY c
    | some v =>
      by_cases hv : v.len = g.size x
      · simp only [if_pos hv]
        refine ⟨hm, by simp, by simp, fun _ c => ?_⟩
        have : (m.blur b c).arr x = some v := ha
        simp only [this, if_pos hv]
      · simp only [if_neg hv]
        obtain ⟨a1, a2, a3, a4⟩ := alloc_tame m x (g.size x) hm
        refine ⟨a1, a2, a3, fun hY c => ?_⟩
        have : (m.blur b c).arr x = some v := ha
        simp only [this, if_neg hv]
        exact a4 hY c

theorem Held.off {m : Mem V} (hm : Held b Y m) {x : Id} (hx : ¬ Y x) : (m.view x).buf ≠ b :=
  fun e => hx (hm.hold x e).1

theorem assign_tame (m : Mem V) {x : Id} (k : Nat) (c : Id) (n : Nat) (hx : ¬ Y x) :
    Tame b Y (fun m => m.assign x k c n) m := by
  intro hm
  refine ⟨⟨hm.lt, hm.pos, hm.hold⟩, fun i => ?_, fun _ h => h, fun hY d => ?_⟩
  · show (if b = (m.view x).buf ∧ _ ∧ _ then _ else _) = _
    rw [if_neg (fun h => hm.off hx h.1.symm)]
  · have hc := hm.off (hY c)
    have hxx := hm.off hx
    have : ∀ b' i, ((m.blur b d).assign x k c n).cell b' i = ((m.assign x k c n).blur b d).cell b' i := by
      intro b' i
      show (if b' = (m.view x).buf ∧ (m.view x).off + k ≤ i ∧ i < (m.view x).off + k + n then
          (if (m.view c).buf = b then _ else m.cell (m.view c).buf _) else if b' = b then d i else m.cell b' i) =
        if b' = b then d i else
          if b' = (m.view x).buf ∧ (m.view x).off + k ≤ i ∧ i < (m.view x).off + k + n then
            m.cell (m.view c).buf _ else m.cell b' i
      rw [if_neg hc]
      by_cases hb : b' = b
      · subst hb
        rw [if_neg (fun h => hxx h.1.symm), if_pos rfl, if_pos rfl]
      · rw [if_neg hb, if_neg hb]; rfl
    have e : ((m.blur b d).assign x k c n).cell = ((m.assign x k c n).blur b d).cell := by
      funext b' i; exact this b' i
    show Mem.mk _ _ ((m.blur b d).assign x k c n).cell _ _ _ = Mem.mk _ _ ((m.assign x k c n).blur b d).cell _ _ _
    rw [e]; rfl

theorem rebind_tame (m : Mem V) (c : Id) {v : View} (hv : v.buf ≠ b) :
    Tame b Y (fun m => m.rebind spoil c v) m := by
  intro hm
  have hw : ∀ z, ((m.rebind spoil c v).view z).buf = b → z ≠ c ∧ (m.view z).buf = b := by
    intro z hz
    by_cases hzx : z = c
    · subst hzx
      have : (m.rebind spoil z v).view z = v := by
        show (upd m.arr z _ z).getD _ = _
        rw [upd_same]; rfl
      rw [this] at hz
      exact absurd hz hv
    · refine ⟨hzx, ?_⟩
      have e : (m.rebind spoil c v).view z = m.view z := by
        show (upd m.arr c _ z).getD _ = _
        rw [upd_ne _ _ hzx]; rfl
      rw [← e]; exact hz
  have hc : m.owns c = true → (m.view c).buf ≠ b := by
    intro ho e
    rw [(hm.hold c e).2] at ho
    cases ho
  refine ⟨⟨hm.lt, hm.pos, fun z hz => ?_⟩, fun i => ?_, fun z hz => (hw z hz).2, fun _ d => ?_⟩
  · obtain ⟨h1, h2⟩ := hw z hz
    refine ⟨(hm.hold z h2).1, ?_⟩
    show upd m.owns c false z = false
    rw [upd_ne _ _ h1]; exact (hm.hold z h2).2
  · show (if m.owns c = true ∧ b = (m.view c).buf ∧ _ ∧ _ then _ else _) = _
    rw [if_neg (fun h => hc h.1 h.2.1.symm)]
  · have e : ((m.blur b d).rebind spoil c v).cell = ((m.rebind spoil c v).blur b d).cell := by
      funext b' i
      show (if m.owns c = true ∧ b' = (m.view c).buf ∧ (m.view c).off ≤ i ∧ i < (m.view c).off + (m.view c).len
          then spoil b' i else if b' = b then d i else m.cell b' i) =
        if b' = b then d i else if m.owns c = true ∧ b' = (m.view c).buf ∧ (m.view c).off ≤ i ∧
          i < (m.view c).off + (m.view c).len then spoil b' i else m.cell b' i
      by_cases hb : b' = b
      · subst hb
        rw [if_neg (fun h => hc h.1 h.2.1.symm), if_pos rfl, if_pos rfl]
      · rw [if_neg hb, if_neg hb]
    show Mem.mk _ _ ((m.blur b d).rebind spoil c v).cell _ _ _ =
      Mem.mk _ _ ((m.rebind spoil c v).blur b d).cell _ _ _
    rw [e]; rfl

theorem each_tame {size : Id → Nat} {f : Mem V → Id → Nat → Mem V} : ∀ (L : List Id) (k : Nat) (m : Mem V),
    (∀ c ∈ L, ∀ k m, Tame b Y (fun m => f m c k) m) → Tame b Y (fun m => each size f L k m) m
  | [], _, m, _ => Tame.id m
  | c :: L, k, m, h =>
    Tame.comp (f := fun m => f m c k) (f' := fun m => each size f L (k + size c) m) (h c (List.mem_cons_self ..) k m)
      (each_tame L (k + size c) (f m c k) (fun d hd => h d (List.mem_cons_of_mem _ hd)))

theorem propagateF_tame (hY : ∀ z, Y z → g.kids z = []) : ∀ (n : Nat) (m : Mem V) (x b' o : Nat), b' ≠ b →
    Tame b Y (fun m => propagateF spoil g n m x b' o) m
  | 0, m, _, _, _, _ => Tame.id m
  | n + 1, m, x, b', o, hb => by
    unfold propagateF
    refine each_tame _ _ _ (fun c hc k m => ?_)
    have hx : ¬ Y x := fun h => by rw [hY x h] at hc; cases hc
    refine Tame.comp (f := fun m => (((m.ensure g c).ensure g x).assign x k c (g.size c)).rebind spoil c
      ⟨b', o + k, g.size c⟩) ?_ (propagateF_tame hY n _ c b' (o + k) hb)
    refine Tame.comp (f := fun m => ((m.ensure g c).ensure g x).assign x k c (g.size c))
      (f' := fun m => m.rebind spoil c ⟨b', o + k, g.size c⟩) ?_ (rebind_tame spoil _ c hb)
    refine Tame.comp (f := fun m => (m.ensure g c).ensure g x) (f' := fun m => m.assign x k c (g.size c)) ?_
      (assign_tame _ k c _ hx)
    exact Tame.comp (f := fun m => m.ensure g c) (f' := fun m => m.ensure g x) (ensure_tame m c) (ensure_tame _ x)

theorem connectOne_tame (hY : ∀ z, Y z → g.kids z = []) {r : Id} (hr : ¬ Y r) (p k : Nat) (m : Mem V) :
    Tame b Y (fun m => connectOne spoil g r m p k) m := by
  intro hm
  obtain ⟨a1, a2, a3, a4⟩ := Tame.comp (f := fun m => m.ensure g p) (f' := fun m => m.ensure g r)
    (ensure_tame (b := b) (Y := Y) m p) (ensure_tame _ r) hm
  simp only [connectOne]
  dsimp only at a1 a2 a3 a4
  generalize hm1 : (m.ensure g p).ensure g r = m1 at a1 a2 a3 a4
  have hb' : (m1.view r).buf ≠ b := a1.off hr
  have key : Tame b Y (fun m => ((propagateF spoil g g.fuel m p (m1.view r).buf ((m1.view r).off + k)).assign r k p
      (g.size p)).rebind spoil p ⟨(m1.view r).buf, (m1.view r).off + k, g.size p⟩) m1 := by
    refine Tame.comp (f' := fun m => m.rebind spoil p ⟨(m1.view r).buf, (m1.view r).off + k, g.size p⟩) ?_
      (rebind_tame spoil _ p hb')
    exact Tame.comp (f' := fun m => m.assign r k p (g.size p)) (propagateF_tame spoil hY _ _ _ _ _ hb')
      (assign_tame _ k p _ hr)
  obtain ⟨b1, b2, b3, b4⟩ := key a1
  refine ⟨b1, fun i => (b2 i).trans (a2 i), fun z hz => a3 z (b3 z hz), fun hY' c => ?_⟩
  rw [a4 hY' c]
  exact b4 hY' c

theorem connect_tame (hY : ∀ z, Y z → g.kids z = []) (r : Id) (m : Mem V) :
    Tame b Y (fun m => connect spoil g m r) m := by
  unfold connect
  refine each_tame _ _ _ (fun c hc k m => connectOne_tame spoil hY (fun h => ?_) c k m)
  rw [hY r h] at hc
  cases hc

theorem setstateF_tame (hY : ∀ z, Y z → g.kids z = []) : ∀ (n : Nat) (x : Id) (m : Mem V),
    Tame b Y (fun m => setstateF spoil g n m x) m
  | 0, _, m => Tame.id m
  | n + 1, x, m => by
    have key : ∀ (L : List Id) (m : Mem V), Tame b Y (fun m => L.foldl (fun m c => setstateF spoil g n m c) m) m := by
      intro L
      induction L with
      | nil => exact fun m => Tame.id m
      | cons c L ih => exact fun m => Tame.comp (setstateF_tame hY n c m) (ih _)
    unfold setstateF
    cases hl : g.leaf x with
    | true => simpa using key _ m
    | false => simpa using Tame.comp (f' := fun m => connect spoil g m x) (key (g.kids x) m) (connect_tame spoil hY x _)

theorem rawCopy_tame (g : Graph) (x : Id) (m : Mem V) :
    Tame b Y (fun m => m.rawCopy g x) m := by
  intro hm
  have hw : ∀ z, ((m.rawCopy g x).view z).buf = b → pick (g.subtree x) g.next z = none ∧ (m.view z).buf = b := by
    intro z hz
    cases hp : pick (g.subtree x) g.next z with
    | none =>
      refine ⟨rfl, ?_⟩
      have e : (m.rawCopy g x).view z = m.view z := by
        unfold Mem.view rawCopy
        simp only [hp]
      rw [← e]; exact hz
    | some y =>
      exfalso
      have e : (m.rawCopy g x).view z = (if g.leaf y then some ⟨m.next + (g.subtree x).idxOf y, 0, g.size y⟩
          else none : Option View).getD ⟨0, 0, 0⟩ := by
        unfold Mem.view rawCopy
        simp only [hp]
      rw [e] at hz
      have := hm.lt
      have := hm.pos
      split at hz
      · simp only [Option.getD_some] at hz; omega
      · simp only [Option.getD_none] at hz; omega
  have hpb : pick (g.subtree x) m.next b = none := Hier.pick_none.mpr (.inl hm.lt)
  refine ⟨⟨Nat.lt_of_lt_of_le hm.lt (Nat.le_add_right ..), hm.pos, fun z hz => ?_⟩, fun i => ?_,
    fun z hz => (hw z hz).2, fun hY' d => ?_⟩
  · obtain ⟨h1, h2⟩ := hw z hz
    refine ⟨(hm.hold z h2).1, ?_⟩
    show (match pick (g.subtree x) g.next z with | none => m.owns z | some _ => false) = false
    rw [h1]; exact (hm.hold z h2).2
  · show (match pick (g.subtree x) m.next b with | none => m.cell b i | some y => _) = _
    rw [hpb]
  · have e : ((m.blur b d).rawCopy g x).cell = ((m.rawCopy g x).blur b d).cell := by
      funext b' i
      show (match pick (g.subtree x) m.next b' with
          | none => if b' = b then d i else m.cell b' i
          | some y => if g.leaf y = true ∧ i < g.size y then
              (if (m.view y).buf = b then d ((m.view y).off + i) else m.cell (m.view y).buf ((m.view y).off + i))
              else if b' = b then d i else m.cell b' i) =
        if b' = b then d i else (match pick (g.subtree x) m.next b' with
          | none => m.cell b' i
          | some y => if g.leaf y = true ∧ i < g.size y then m.cell (m.view y).buf ((m.view y).off + i)
              else m.cell b' i)
      by_cases hb : b' = b
      · subst hb
        rw [hpb]
      · cases pick (g.subtree x) m.next b' with
        | none => rfl
        | some y =>
          simp only [if_neg hb, if_neg (hm.off (hY' y))]
    show Mem.mk _ _ ((m.blur b d).rawCopy g x).cell _ _ _ = Mem.mk _ _ ((m.rawCopy g x).blur b d).cell _ _ _
    rw [e]; rfl

/-! ### An object in no hierarchy keeps its memory -/

theorem ensure_arr (m : Mem V) {x y : Id} (hy : g.leaf y = true) : (m.ensure g x).arr y = m.arr y := by
  unfold ensure
  by_cases hxy : x = y
  · subst hxy; rw [if_pos hy]
  · have : ∀ n, (m.alloc x n).arr y = m.arr y := fun n => upd_ne _ _ (Ne.symm hxy)
    split
    · rfl
    · split
      · exact this _
      · split
        · rfl
        · exact this _

theorem rebind_arr (m : Mem V) {c y : Id} (v : View) (h : y ≠ c) : (m.rebind spoil c v).arr y = m.arr y :=
  upd_ne _ _ h

theorem each_arr {size : Id → Nat} {f : Mem V → Id → Nat → Mem V} {y : Id} : ∀ (L : List Id) (k : Nat) (m : Mem V),
    (∀ c ∈ L, ∀ k m, (f m c k).arr y = m.arr y) → (each size f L k m).arr y = m.arr y
  | [], _, _, _ => rfl
  | c :: L, k, m, h =>
    (each_arr L (k + size c) (f m c k) (fun d hd => h d (List.mem_cons_of_mem _ hd))).trans
      (h c (List.mem_cons_self ..) k m)

theorem propagateF_arr {y : Id} (hl : g.leaf y = true) (hk : ∀ p, y ∉ g.kids p) :
    ∀ (n : Nat) (m : Mem V) (x b' o : Nat), (propagateF spoil g n m x b' o).arr y = m.arr y
  | 0, _, _, _, _ => rfl
  | n + 1, m, x, b', o => by
    unfold propagateF
    refine each_arr _ _ _ (fun c hc k m => ?_)
    have hne : y ≠ c := fun e => hk x (e ▸ hc)
    rw [propagateF_arr hl hk n, rebind_arr spoil _ _ hne]
    show ((m.ensure g c).ensure g x).arr y = _
    rw [ensure_arr _ hl, ensure_arr _ hl]

theorem connect_arr {y : Id} (hl : g.leaf y = true) (hk : ∀ p, y ∉ g.kids p) (m : Mem V) (r : Id) :
    (connect spoil g m r).arr y = m.arr y := by
  unfold connect
  refine each_arr _ _ _ (fun c hc k m => ?_)
  have hne : y ≠ c := fun e => hk r (e ▸ hc)
  simp only [connectOne]
  rw [rebind_arr spoil _ _ hne]
  show (propagateF spoil g _ _ _ _ _).arr y = _
  rw [propagateF_arr spoil hl hk, ensure_arr _ hl, ensure_arr _ hl]

theorem setstateF_arr {y : Id} (hl : g.leaf y = true) (hk : ∀ p, y ∉ g.kids p) : ∀ (n : Nat) (x : Id) (m : Mem V),
    (setstateF spoil g n m x).arr y = m.arr y
  | 0, _, _ => rfl
  | n + 1, x, m => by
    have key : ∀ (L : List Id) (m : Mem V), (L.foldl (fun m c => setstateF spoil g n m c) m).arr y = m.arr y := by
      intro L
      induction L with
      | nil => exact fun m => rfl
      | cons c L ih => exact fun m => (ih _).trans (setstateF_arr hl hk n c m)
    unfold setstateF
    simp only []
    split
    · exact key _ m
    · rw [connect_arr spoil hl hk]; exact key _ m

end Mem

/-! ### Which connects a call makes -/

/-- The children in `g'` are children in `g`, or are linked by `Z`. -/
structure Kin (Z : Id → Id → Prop) (g g' : Graph) : Prop where
  next : g'.next = g.next
  leaf : g'.leaf = g.leaf
  kids : ∀ p c, c ∈ g'.kids p → c ∈ g.kids p ∨ Z p c

theorem Kin.refl (Z : Id → Id → Prop) (g : Graph) : Kin Z g g := ⟨rfl, rfl, fun _ _ h => .inl h⟩

theorem Kin.trans {Z : Id → Id → Prop} {g g' g'' : Graph} (a : Kin Z g g') (b : Kin Z g' g'') : Kin Z g g'' :=
  ⟨b.next.trans a.next, b.leaf.trans a.leaf, fun p c h => (b.kids p c h).elim (a.kids p c) .inr⟩

theorem Kin.of_eq {Z : Id → Id → Prop} {g g' : Graph} (hn : g'.next = g.next) (hl : g'.leaf = g.leaf)
    (hk : g'.kids = g.kids) : Kin Z g g' :=
  ⟨hn, hl, fun p c h => .inl (by rw [← hk]; exact h)⟩

theorem Kin.mono {Z Z' : Id → Id → Prop} {g g' : Graph} (a : Kin Z g g') (h : ∀ p c, Z p c → Z' p c) : Kin Z' g g' :=
  ⟨a.next, a.leaf, fun p c hc => (a.kids p c hc).imp id (h p c)⟩

namespace State

/-- `_connect_parameters` of a list of objects, one after another, each with its hierarchy. -/
def runs (L : List (Graph × Id)) (m : Mem V) : Mem V := L.foldl (fun m gr => m.connect spoil gr.1 gr.2) m

theorem runs_append (L L' : List (Graph × Id)) (m : Mem V) : runs spoil (L ++ L') m = runs spoil L' (runs spoil L m) :=
  List.foldl_append ..

/-- A call's work on memory is a list of connects that depends on the objects only. -/
def Moves (Z : Id → Id → Prop) (h : Heap T) (f : Mem V → State V T) : Prop :=
  ∃ L : List (Graph × Id), (∀ gr ∈ L, Kin Z h.toGraph gr.1) ∧ (∀ m, (f m).mem = runs spoil L m) ∧
    ∃ h', (∀ m, (f m).heap = h') ∧ Kin Z h.toGraph h'.toGraph

variable {Z : Id → Id → Prop}

theorem Moves.comp {h : Heap T} {f : Mem V → State V T} {k : State V T → State V T} (hf : Moves spoil Z h f)
    (hk : ∀ h', Kin Z h.toGraph h'.toGraph → (∃ m, (f m).heap = h') → Moves spoil Z h' (fun m => k ⟨h', m⟩)) :
    Moves spoil Z h (fun m => k (f m)) := by
  obtain ⟨L, h1, h2, h', h3, h4⟩ := hf
  by_cases hV : Nonempty (Mem V)
  · obtain ⟨m0⟩ := hV
    obtain ⟨L', k1, k2, h'', k3, k4⟩ := hk h' h4 ⟨m0, h3 m0⟩
    have e : ∀ m, f m = ⟨h', runs spoil L m⟩ := fun m => by rw [← h2 m, ← h3 m]
    refine ⟨L ++ L', fun gr hgr => ?_, fun m => ?_, h'', fun m => ?_, h4.trans k4⟩
    · rcases List.mem_append.mp hgr with hgr | hgr
      · exact h1 gr hgr
      · exact h4.trans (k1 gr hgr)
    · rw [runs_append]
      show (k (f m)).mem = _
      rw [e m]; exact k2 _
    · show (k (f m)).heap = _
      rw [e m]; exact k3 _
  · exact ⟨[], fun _ h => absurd h (by simp), fun m => absurd ⟨m⟩ hV, h, fun m => absurd ⟨m⟩ hV, Kin.refl _ _⟩

theorem Moves.pure {h h' : Heap T} (hk : Kin Z h.toGraph h'.toGraph) : Moves spoil Z h (fun m => (⟨h', m⟩ : State V T)) :=
  ⟨[], fun _ h => absurd h (by simp), fun _ => rfl, h', fun _ => rfl, hk⟩

theorem Moves.on (h : Heap T) (f : Heap T → Heap T) (hk : Kin Z h.toGraph (f h).toGraph) :
    Moves spoil Z h (fun m => (⟨h, m⟩ : State V T).on f) := Moves.pure spoil hk

theorem Moves.congr {h : Heap T} {f f' : Mem V → State V T} (hf : Moves spoil Z h f) (e : ∀ m, f' m = f m) :
    Moves spoil Z h f' := by
  have : f' = f := funext e
  rw [this]; exact hf

theorem Moves.connect (h : Heap T) (r : Id) : Moves spoil Z h (fun m => (⟨h, m⟩ : State V T).connect spoil r) :=
  ⟨[(h.toGraph, r)], fun gr hgr => by rw [List.mem_singleton.mp hgr]; exact Kin.refl _ _, fun _ => rfl, h.connect r,
    fun _ => rfl, Kin.of_eq rfl rfl rfl⟩

theorem kin_graph {h h' : Heap T} (e : h'.toGraph = h.toGraph) : Kin Z h.toGraph h'.toGraph := by
  rw [e]; exact Kin.refl _ _

/-- The last lines of `unlink_parameter` (parameterized.py:223-226). -/
def close (s : State V T) (q : Id) : State V T :=
  (s.connect spoil (s.heap.toGraph.highest q)).on fun h =>
    (h.connectFixes (s.heap.toGraph.highest q)).notifyParentChange (s.heap.toGraph.highest q)

theorem close_moves (h : Heap T) (q : Id) : Moves spoil Z h (fun m => (⟨h, m⟩ : State V T).close spoil q) := by
  have m1 := Moves.connect spoil (V := V) (Z := Z) h (h.toGraph.highest q)
  have m2 := Moves.comp spoil (k := fun s => s.on fun h' =>
      (h'.connectFixes (h.toGraph.highest q)).notifyParentChange (h.toGraph.highest q)) m1
    (fun h'' _ _ => Moves.on spoil h'' _ (kin_graph ((Heap'.notify_graph _ _).trans (Heap'.connectFixes_graph _ _))))
  exact Moves.congr spoil m2 (fun m => by unfold close; rfl)

theorem unlinkChild_moves (h : Heap T) (q x : Id) :
    Moves spoil Z h (fun m => (⟨h, m⟩ : State V T).unlinkChild spoil q x) := by
  have e1 : Kin Z h.toGraph (Heap.toGraph { h with
      size := upd h.size q (h.size q - h.size x)
      kids := upd h.kids q ((h.kids q).eraseIdx (h.pidx x)) }) := by
    refine ⟨rfl, rfl, fun p c hc => .inl ?_⟩
    have hc : c ∈ upd h.kids q ((h.kids q).eraseIdx (h.pidx x)) p := hc
    by_cases hp : p = q
    · subst hp; rw [upd_same] at hc; exact List.mem_of_mem_eraseIdx hc
    · rw [upd_ne _ _ hp] at hc; exact hc
  have m1 := Moves.on spoil (V := V) h (fun h => { h with
      size := upd h.size q (h.size q - h.size x)
      kids := upd h.kids q ((h.kids q).eraseIdx (h.pidx x)) }) e1
  have m2 := Moves.comp spoil (k := fun s => s.connect spoil q) m1 (fun h' _ _ => Moves.connect spoil h' q)
  have m3 := Moves.comp spoil (k := fun s => s.on fun h => h.disconnect x) m2
    (fun h' _ _ => Moves.on spoil h' _ (Kin.of_eq (disconnect_shape h' x).next (disconnect_shape h' x).leaf (disconnect_shape h' x).kids))
  have m4 := Moves.comp spoil (k := fun s => s.on fun h' =>
      { h' with dicts := upd h'.dicts (h'.iop q).1 ((h'.iop q).2.shiftLeft (h'.dicts (h'.iop q).1)
        (h.toGraph.sizeSum ((h.kids q).take (h.pidx x))) (h.size x)) }) m3
    (fun h' _ _ => Moves.on spoil h' _ (Kin.of_eq rfl rfl rfl))
  have m5 := Moves.comp spoil (k := fun s => s.connect spoil q) m4 (fun h' _ _ => Moves.connect spoil h' q)
  have m6 := Moves.comp spoil (k := fun s => s.on fun h => h.notifyParentChange q) m5
    (fun h' _ _ => Moves.on spoil h' _ (kin_graph (Heap'.notify_graph h' q)))
  have m7 := Moves.comp spoil (k := fun s => s.on fun h' => match h'.parent q with
      | none => h'
      | some p => h'.subSizes p (h.size x)) m6 (fun h' _ _ => Moves.on spoil h' _ (by
        cases h'.parent q with
        | none => exact Kin.refl _ _
        | some p => exact Kin.of_eq (subSizes_rest h' _ _).1 (subSizes_rest h' _ _).2.1 (subSizes_rest h' _ _).2.2.1))
  have m8 := Moves.comp spoil (k := fun s => s.close spoil q) m7 (fun h' _ _ => close_moves spoil h' q)
  exact m8

theorem addSizes_same (h : Heap T) (x n : Nat) :
    (h.addSizes x n).next = h.next ∧ (h.addSizes x n).leaf = h.leaf ∧ (h.addSizes x n).kids = h.kids := by
  unfold Heap.addSizes
  generalize h.toGraph.upwards x = L
  induction L generalizing h with
  | nil => exact ⟨rfl, rfl, rfl⟩
  | cons y L ih => exact ih { h with size := upd h.size y (h.size y + n) }

theorem linkEnd_moves (h : Heap T) (p : Id) : Moves spoil Z h (fun m => ((⟨h, m⟩ : State V T).linkEnd spoil p).1) := by
  cases hii : h.inInit p with
  | true => exact Moves.congr spoil (Moves.pure spoil (Kin.refl _ _)) (fun m => by simp [linkEnd, hii])
  | false =>
    cases hi : h.inited (h.toGraph.highest p) with
    | none => exact Moves.congr spoil (Moves.pure spoil (Kin.refl _ _)) (fun m => by simp [linkEnd, hii, hi])
    | some b =>
      cases b with
      | false => exact Moves.congr spoil (Moves.pure spoil (Kin.refl _ _)) (fun m => by simp [linkEnd, hii, hi])
      | true =>
        refine Moves.congr spoil (Moves.comp spoil (k := fun s => s.on fun h' =>
          (h'.notifyParentChange (h.toGraph.highest p)).connectFixes (h.toGraph.highest p)) (Moves.connect spoil h
            (h.toGraph.highest p)) ?_) (fun m => by simp [linkEnd, hii, hi])
        exact fun h'' _ _ => Moves.on spoil h'' _ (kin_graph ((Heap'.connectFixes_graph _ _).trans (Heap'.notify_graph _ _)))

theorem linkRoot_moves (h : Heap T) (p x : Id) (index : Option Int) (hZ : Z p x) :
    Moves spoil Z h (fun m => ((⟨h, m⟩ : State V T).linkRoot spoil p x index).1) := by
  have hk : Kin Z h.toGraph ((h.linkPointers p x index).addSizes p (h.size x)).toGraph := by
    obtain ⟨a', a, b⟩ := addSizes_same (h.linkPointers p x index) p (h.size x)
    refine ⟨a', a, fun q c hc => ?_⟩
    rw [b] at hc
    have hc : c ∈ upd h.kids p ((h.kids p).take (Heap.insertPos (h.kids p) index) ++
      x :: (h.kids p).drop (Heap.insertPos (h.kids p) index)) q := hc
    by_cases hq : q = p
    · subst hq
      rw [upd_same] at hc
      rcases List.mem_append.mp hc with hc | hc
      · exact .inl (List.mem_of_mem_take hc)
      · rcases List.mem_cons.mp hc with hc | hc
        · rw [hc]; exact .inr hZ
        · exact .inl (List.mem_of_mem_drop hc)
    · rw [upd_ne _ _ hq] at hc; exact .inl hc
  have m1 := Moves.on spoil (V := V) h (fun h => (h.linkPointers p x index).addSizes p (h.size x)) hk
  by_cases hi : Heap.storedIndex (h.kids p) index ≠ Heap.insertPos (h.kids p) index
  · exact Moves.congr spoil m1 (fun m => by simp only [linkRoot]; rw [if_pos hi])
  · have m2 := Moves.comp spoil (k := fun s => s.on fun h => h.notifyParentChange p) m1
      (fun h' _ _ => Moves.on spoil h' _ (kin_graph (Heap'.notify_graph _ _)))
    have m3 := Moves.comp spoil (k := fun s => (s.linkEnd spoil p).1) m2 (fun h' _ _ => linkEnd_moves spoil h' p)
    exact Moves.congr spoil m3 (fun m => by simp only [linkRoot]; rw [if_neg hi])

theorem linkNew_moves (h : Heap T) (p x : Id) (index : Option Int) (hZ : Z p x) :
    Moves spoil Z h (fun m => ((⟨h, m⟩ : State V T).linkNew spoil p x index).1) := by
  cases hp : h.parent x with
  | none =>
    exact Moves.congr spoil (linkRoot_moves spoil h p x index hZ) (fun m => by simp only [linkNew, hp])
  | some q =>
    have m1 := Moves.on spoil (V := V) (Z := Z) h (fun h' => { h' with visited :=
      (h.toGraph.traverseParents (fun _ y => decide (y = p)) ⟨h.visited, [], false⟩ x).marks }) (Kin.of_eq rfl rfl rfl)
    by_cases hr : (h.toGraph.traverseParents (fun _ y => decide (y = p)) ⟨h.visited, [], false⟩ x).raised = true
    · exact Moves.congr spoil m1 (fun m => by simp only [linkNew, hp]; rw [if_pos hr])
    · have m2 := Moves.comp spoil (k := fun s => s.unlinkChild spoil q x) m1
        (fun h' _ _ => unlinkChild_moves spoil h' q x)
      have m3 := Moves.comp spoil (k := fun s => (s.linkRoot spoil p x index).1) m2
        (fun h' _ _ => linkRoot_moves spoil h' p x index hZ)
      exact Moves.congr spoil m3 (fun m => by simp only [linkNew, hp]; rw [if_neg hr])

/-- What a call links. -/
def links (h : Heap T) : Heap.Ev T → Id → Id → Prop
  | .link p x _, q, c => q = p ∧ c = x ∧ h.leaf p = false
  | _, _, _ => False

theorem link_moves (h : Heap T) (p x : Id) (index : Option Int) :
    Moves spoil (links h (.link p x index)) h (fun m => ((⟨h, m⟩ : State V T).link spoil p x index).1) := by
  cases hl : h.leaf p with
  | true => exact Moves.congr spoil (Moves.pure spoil (Kin.refl _ _)) (fun m => by simp [link, hl])
  | false =>
    have hZ : links h (.link p x index) p x := ⟨rfl, rfl, hl⟩
    by_cases hx : x ∈ h.kids p
    · cases index with
      | none => exact Moves.congr spoil (Moves.pure spoil (Kin.refl _ _)) (fun m => by simp [link, hl, hx])
      | some i =>
        exact Moves.congr spoil (Moves.comp spoil (k := fun s => (s.linkNew spoil p x (some i)).1)
          (unlinkChild_moves spoil h p x) (fun h' _ _ => linkNew_moves spoil h' p x _ hZ))
          (fun m => by simp [link, hl, hx])
    · exact Moves.congr spoil (linkNew_moves spoil h p x index hZ) (fun m => by simp [link, hl, hx])

theorem unlink_moves (h : Heap T) (q x : Id) :
    Moves spoil Z h (fun m => ((⟨h, m⟩ : State V T).unlink spoil q x).1) := by
  cases hl : h.leaf q with
  | true => exact Moves.congr spoil (Moves.pure spoil (Kin.refl _ _)) (fun m => by simp [unlink, hl])
  | false =>
    by_cases hx : x ∈ h.kids q
    · exact Moves.congr spoil (unlinkChild_moves spoil h q x) (fun m => by simp [unlink, hl, hx])
    · exact Moves.congr spoil (Moves.pure spoil (Kin.refl _ _)) (fun m => by simp [unlink, hl, hx])

theorem initialize_moves (h : Heap T) (x : Id) :
    Moves spoil Z h (fun m => (⟨h, m⟩ : State V T).initializeParameter spoil x) := by
  have m1 := Moves.on spoil (V := V) (Z := Z) h (fun h' => h'.notifyParentChange (h.toGraph.highest x))
    (kin_graph (Heap'.notify_graph _ _))
  have m2 := Moves.comp spoil (k := fun s => s.connect spoil (h.toGraph.highest x)) m1
    (fun h' _ _ => Moves.connect spoil h' _)
  exact Moves.comp spoil (k := fun s => s.on fun h' => h'.connectFixes (h.toGraph.highest x)) m2
    (fun h' _ _ => Moves.on spoil h' _ (kin_graph (Heap'.connectFixes_graph _ _)))

theorem finishInit_moves (h : Heap T) (x : Id) (i : Bool) :
    Moves spoil Z h (fun m => (⟨h, m⟩ : State V T).finishInit spoil x i) := by
  have m1 := Moves.on spoil (V := V) (Z := Z) h (fun h =>
    { h with inInit := upd h.inInit x false, inited := upd h.inited x (some false) }) (Kin.of_eq rfl rfl rfl)
  cases i with
  | false => exact Moves.congr spoil m1 (fun m => by simp [finishInit])
  | true =>
    exact Moves.congr spoil (Moves.comp spoil (k := fun s => s.initializeParameter spoil x) m1
      (fun h' _ _ => initialize_moves spoil h' x)) (fun m => by simp [finishInit])

/-- Calls other than making objects. -/
def quiet : Heap.Ev T → Bool
  | .newParam _ | .newNode => false
  | _ => true

theorem exec_moves {h : Heap T} (w : h.WF) (e : Heap.Ev T) (ha : h.Admissible e) (hq : quiet e = true) :
    Moves spoil (links h e) h (fun m => ((⟨h, m⟩ : State V T).exec spoil (.heap e)).1) := by
  cases e with
  | newParam n => cases hq
  | newNode => cases hq
  | finishInit x i => exact finishInit_moves spoil h x i
  | init x => exact initialize_moves spoil h x
  | link p x i => exact link_moves spoil h p x i
  | unlink p x => exact unlink_moves spoil h p x
  | constrain x c => exact Moves.pure spoil (kin_graph ((Heap.constraining_wf w ha).1 c).2.graph)
  | unconstrain x cs => exact Moves.pure spoil (kin_graph ((Heap.constraining_wf w ha).2.1 cs).2.graph)
  | fix x => exact Moves.pure spoil (kin_graph (Heap.constraining_wf w ha).2.2.1.2.graph)
  | unfix x => exact Moves.pure spoil (kin_graph (Heap.constraining_wf w ha).2.2.2.2.graph)

theorem runs_tame {b : Nat} {Y : Id → Prop} : ∀ (L : List (Graph × Id)) (m : Mem V),
    (∀ gr ∈ L, ∀ z, Y z → gr.1.kids z = []) → Mem.Tame b Y (runs spoil L) m
  | [], m, _ => Mem.Tame.id m
  | gr :: L, m, h =>
    Mem.Tame.comp (f' := runs spoil L) (Mem.connect_tame spoil (h gr (List.mem_cons_self ..)) gr.2 m)
      (runs_tame L _ (fun g hg => h g (List.mem_cons_of_mem _ hg)))

theorem runs_arr {y : Id} : ∀ (L : List (Graph × Id)) (m : Mem V),
    (∀ gr ∈ L, gr.1.leaf y = true ∧ ∀ p, y ∉ gr.1.kids p) → (runs spoil L m).arr y = m.arr y
  | [], _, _ => rfl
  | gr :: L, m, h =>
    (runs_arr L _ (fun g hg => h g (List.mem_cons_of_mem _ hg))).trans
      (Mem.connect_arr spoil (h gr (List.mem_cons_self ..)).1 (h gr (List.mem_cons_self ..)).2 m gr.2)

end State

end Paramz.Memory

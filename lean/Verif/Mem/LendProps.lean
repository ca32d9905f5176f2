import Verif.Mem.LendLemmas
import Verif.Mem.Props
import Verif.Mem.Check

/-!
# C101: a `Param` and the array it was made of

`s.mem.cell b i` is `X[i]`, the element `i` of the user's array; `s.mem.read z i` is element `i` of the array of
the object `z`.
-/

set_option linter.unusedSectionVars false

namespace Paramz.Memory

open Hier (Id Graph Heap upd upd_same upd_ne)

variable {V T : Type} [DecidableEq T] {spoil : Nat → Nat → V} {b n : Nat}

namespace State

/-- The step hands `y` to `link_parameter`. -/
def LinksIt (y : Id) : Deal V T → Prop
  | .call (.heap (.link _ x _)) => x = y
  | _ => False

/-- The `Param` has elements, is in a hierarchy, and the top of the hierarchy is initialised. -/
structure InModel (s : State V T) (y : Id) : Prop where
  some : 0 < s.heap.size y
  inside : s.heap.parent y ≠ none
  done : Done s.heap (s.heap.toGraph.highest y)

/-- `z` and `X` have nothing to do with each other: assigning to one does not change the other. -/
structure Apart (b : Nat) (s : State V T) (z : Id) : Prop where
  poke : ∀ i v j, (s.poke b i v).mem.read z j = s.mem.read z j
  write : ∀ i v j, (s.exec spoil (.write z i v)).1.mem.cell b j = s.mem.cell b j

theorem Apart.of_buf {s : State V T} {z : Id} (h : (s.mem.view z).buf ≠ b) : Apart (spoil := spoil) b s z := by
  constructor
  · intro i v j
    exact if_neg (fun e => h e.1)
  · intro i v j
    show (if b = (s.mem.view z).buf ∧ _ then v else s.mem.cell b j) = _
    rw [if_neg (fun e => h e.1.symm)]

/-! ### The `Param` is the array -/

theorem stays {ds : List (Deal V T)} {v : Option View} {y : Id} : ∀ {s : State V T} {Y : List Id}, Owned spoil b n s Y →
    y < s.heap.next → s.heap.leaf y = true → (∀ p, y ∉ s.heap.kids p) → s.mem.arr y = v →
    s.Legals spoil b n ds → (∀ d ∈ ds, ¬ LinksIt y d) → (s.deals spoil b n ds).mem.arr y = v := by
  induction ds with
  | nil => exact fun _ _ _ _ h _ _ => h
  | cons d ds ih =>
    intro s Y h hy hle hk ha hl hn
    have w := h.lent.heap.inv.1
    obtain ⟨c1, c2, c3⟩ := deal_old spoil (b := b) w hl.1 hy
    have hnd := hn d (List.mem_cons_self ..)
    have hk' : ∀ p, y ∉ (s.deal spoil b n d).heap.kids p := by
      intro p hp
      rcases c3 p hp with h' | ⟨i, h'⟩
      · exact hk p h'
      · rw [h'] at hnd; exact hnd rfl
    refine ih (.step h hl.1) c1 (c2.trans hle) hk' ?_ hl.2 (fun d hd => hn d (List.mem_cons_of_mem _ hd))
    rw [← ha]
    cases d with
    | poke i v => rfl
    | make => exact upd_ne _ _ (Nat.ne_of_lt hy)
    | copy x =>
      show (s.copy spoil x).1.mem.arr y = _
      have hl' : (s.heap.rawCopy x).toGraph.leaf y = true := (raw_leaf s.heap x hy).trans hle
      have hk2 : ∀ p, y ∉ (s.heap.rawCopy x).toGraph.kids p := fun p hp => hk p (raw_mem s.heap x hy hp)
      have e1 : (s.arrayRead x).arr y = s.mem.arr y := by
        unfold arrayRead
        split
        · rfl
        · exact Mem.ensure_arr _ hle
      have e2 : ((s.arrayRead x).rawCopy s.heap.toGraph x).arr y = (s.arrayRead x).arr y := by
        unfold Mem.rawCopy
        simp only [Hier.pick_none.mpr (Or.inl hy)]
      rw [copy_mem_eq]
      simp only []
      split
      · rw [Mem.setstateF_arr spoil hl' hk2, e2, e1]
      · rw [Mem.connect_arr spoil hl' hk2, Mem.setstateF_arr spoil hl' hk2, e2, e1]
    | call e =>
      cases e with
      | write x i v => rfl
      | heap e =>
        cases hq : quiet e with
        | true =>
          obtain ⟨L, hL, hm, -⟩ := exec_moves spoil (V := V) w e hl.1 hq
          have : (s.deal spoil b n (.call (.heap e))).mem = runs spoil L s.mem := hm s.mem
          rw [this]
          refine runs_arr spoil L _ (fun gr hgr => ⟨?_, fun p hp => ?_⟩)
          · rw [(hL gr hgr).leaf]; exact hle
          · rcases (hL gr hgr).kids p y hp with h' | h'
            · exact hk p h'
            · cases e with
              | link q x i => exact hnd h'.2.1.symm
              | _ => exact h'
        | false =>
          cases e with
          | newParam k => exact upd_ne _ _ (Nat.ne_of_lt hy)
          | newNode => rfl
          | _ => cases hq

/-- A `Param` made of an array is that array for as long as it is not linked, whatever else is done: to the
array, to the `Param`, to any model, also to other `Param`s made of the same array. -/
theorem param_is_array {s : State V T} {Y : List Id} (h : Owned spoil b n s Y) {ds : List (Deal V T)}
    (hl : (s.make b n).Legals spoil b n ds) (hn : ∀ d ∈ ds, ¬ LinksIt s.heap.next d) (i : Nat) :
    ((s.make b n).deals spoil b n ds).mem.read s.heap.next i = ((s.make b n).deals spoil b n ds).mem.cell b i := by
  have h1 : Owned spoil b n (s.make b n) (s.grows Y .make) := .step (d := .make) h trivial
  have hk : ∀ p, s.heap.next ∉ (s.make b n).heap.kids p := by
    intro p hp
    have hp : s.heap.next ∈ upd s.heap.kids s.heap.next [] p := hp
    by_cases hpn : p = s.heap.next
    · subst hpn; rw [upd_same] at hp; cases hp
    · rw [upd_ne _ _ hpn] at hp
      have w := h.lent.heap.inv.1
      exact absurd (w.skel.alloc _ _ ((w.skel.mem_iff _ _).mp hp)).1 (Nat.lt_irrefl _)
  have := stays (y := s.heap.next) (v := some ⟨b, 0, n⟩) h1 (Nat.lt_succ_self _) (upd_same _ _ _) hk (upd_same _ _ _) hl hn
  unfold Mem.read Mem.view
  rw [this]
  simp

/-! ### Everything else has nothing to do with the array -/

/-- Objects that were not made of the array, copies of such `Param`s included, never share its memory. -/
theorem others_are_apart {s : State V T} {Y : List Id} (h : Owned spoil b n s Y) {z : Id} (hz : z ∉ Y) :
    Apart (spoil := spoil) b s z := Apart.of_buf (h.lent.held.off hz)

/-- The only steps that change the array are assignments to it and assignments to `Param`s made of it. -/
theorem array_changes {s : State V T} {Y : List Id} (h : Owned spoil b n s Y) {d : Deal V T} (hl : s.Legal n d)
    (hp : ∀ i v, d ≠ .poke i v) (hw : ∀ y i v, d = .call (.write y i v) → y ∉ Y) (i : Nat) :
    (s.deal spoil b n d).mem.cell b i = s.mem.cell b i := by
  have hle := h.lent
  by_cases ha : Away (· ∈ Y) d
  · exact (deal_tame spoil (b := b) (Y := (· ∈ Y)) hle.heap.inv.1 s.mem hl ha (fun z hz => hle.made z hz) hle.held).2.1 i
  · cases d with
    | make => rfl
    | poke i v => exact absurd rfl (hp i v)
    | copy x => exact absurd trivial ha
    | call e =>
      cases e with
      | heap e => exact absurd trivial ha
      | write x i v => exact absurd (hw x i v rfl) ha

/-! ### In a model the `Param` leaves the array, for good -/

/-- A `Param` made of the array that has once been in an initialised model has nothing to do with the array any
more, whatever is done later: also after it is taken out of the model again. -/
theorem parted_for_good {s : State V T} {Y : List Id} (h : Owned spoil b n s Y) {y : Id} (hy : y ∈ Y)
    (hm : s.InModel y) {ds : List (Deal V T)} (hl : s.Legals spoil b n ds) :
    Apart (spoil := spoil) b (s.deals spoil b n ds) y :=
  Apart.of_buf (deals_back spoil h hy hl (h.lent.parted hy hm.some hm.inside hm.done))

/-- The contents of the array after the assignments to it that a program makes. -/
def poked (X : Nat → V) : List (Deal V T) → Nat → V
  | [] => X
  | .poke i v :: ds => poked (upd X i v) ds
  | _ :: ds => poked X ds

/-- The program without the assignments to the array. -/
def unpoked : List (Deal V T) → List (Deal V T)
  | [] => []
  | .poke _ _ :: ds => unpoked ds
  | d :: ds => d :: unpoked ds

/-- Nobody holds the buffer. -/
def Free (b : Nat) (m : Mem V) : Prop := Mem.Held b (fun _ => False) m

theorem run_blur {ds : List (Deal V T)} : ∀ {h : Heap T} {m : Mem V} {c : Nat → V} {Y : List Id}, Free b m →
    Owned spoil b n (⟨h, m.blur b c⟩ : State V T) Y → (⟨h, m.blur b c⟩ : State V T).Legals spoil b n ds →
    (∀ d ∈ ds, d ≠ .make) →
    ∃ m', (⟨h, m⟩ : State V T).deals spoil b n (unpoked ds) =
        ⟨((⟨h, m⟩ : State V T).deals spoil b n (unpoked ds)).heap, m'⟩ ∧ Free b m' ∧
      (⟨h, m.blur b c⟩ : State V T).deals spoil b n ds =
        ⟨((⟨h, m⟩ : State V T).deals spoil b n (unpoked ds)).heap, m'.blur b (poked c ds)⟩ := by
  induction ds with
  | nil => exact fun hf _ _ _ => ⟨_, rfl, hf, rfl⟩
  | cons d ds ih =>
    intro h m c Y hf ho hl hn
    have w := ho.lent.heap.inv.1
    by_cases hp : ∃ i v, d = .poke i v
    · obtain ⟨i, v, rfl⟩ := hp
      have e : (⟨h, m.blur b c⟩ : State V T).deal spoil b n (.poke i v) = ⟨h, m.blur b (upd c i v)⟩ := by
        have : (fun b' j => if b' = b ∧ j = i then v else if b' = b then c j else m.cell b' j) =
            fun b' j => if b' = b then upd c i v j else m.cell b' j := by
          funext b' j
          by_cases hb : b' = b
          · by_cases hj : j = i
            · subst hj; rw [if_pos ⟨hb, rfl⟩, if_pos hb, upd_same]
            · rw [if_neg (fun h => hj h.2), if_pos hb, if_pos hb, upd_ne _ _ hj]
          · rw [if_neg (fun h => hb h.1), if_neg hb, if_neg hb]
        show (⟨h, Mem.mk _ _ _ _ _ _⟩ : State V T) = ⟨h, Mem.mk _ _ _ _ _ _⟩
        exact congrArg (fun f => (⟨h, Mem.mk m.arr m.owns f m.next m.freed m.bad⟩ : State V T)) this
      have ho' := Owned.step (d := .poke i v) ho hl.1
      have hl' := hl.2
      rw [e] at ho' hl'
      obtain ⟨m', h1, h2, h3⟩ := ih hf ho' hl' (fun d hd => hn d (List.mem_cons_of_mem _ hd))
      refine ⟨m', h1, h2, ?_⟩
      show ((⟨h, m.blur b c⟩ : State V T).deal spoil b n (.poke i v)).deals spoil b n ds = _
      rw [e]; exact h3
    · have hu : unpoked (d :: ds) = d :: unpoked ds := by
        cases d with
        | poke i v => exact absurd ⟨i, v, rfl⟩ hp
        | _ => rfl
      have hc : poked c (d :: ds) = poked c ds := by
        cases d with
        | poke i v => exact absurd ⟨i, v, rfl⟩ hp
        | _ => rfl
      have ha : Away (fun _ => False) d := by
        cases d with
        | poke i v => exact absurd ⟨i, v, rfl⟩ hp
        | make => exact absurd rfl (hn _ (List.mem_cons_self ..))
        | copy x => trivial
        | call e =>
          cases e with
          | write x i v => exact id
          | heap e => trivial
      have hl1 : (⟨h, m⟩ : State V T).Legal n d := by
        have := hl.1
        cases d with
        | call e => cases e <;> exact this
        | _ => exact this
      obtain ⟨t1, -, -, t4⟩ := deal_tame spoil (b := b) (Y := fun _ => False) w m hl1 ha (fun _ hz => absurd hz id) hf
      have t4 := t4 (fun _ => id) c
      dsimp only at t1 t4
      have hh := deal_heap spoil (b := b) (n := n) h (m.blur b c) m d
      have e : (⟨h, m.blur b c⟩ : State V T).deal spoil b n d =
          ⟨((⟨h, m⟩ : State V T).deal spoil b n d).heap, ((⟨h, m⟩ : State V T).deal spoil b n d).mem.blur b c⟩ := by
        rw [← hh, ← t4]
      have ho' := Owned.step (d := d) ho hl.1
      have hl' := hl.2
      rw [e] at ho' hl'
      obtain ⟨m', h1, h2, h3⟩ := ih t1 ho' hl' (fun d hd => hn d (List.mem_cons_of_mem _ hd))
      rw [hu, hc]
      refine ⟨m', h1, h2, ?_⟩
      show ((⟨h, m.blur b c⟩ : State V T).deal spoil b n d).deals spoil b n ds = _
      rw [e]; exact h3

/-- When all `Param`s made of the array are in initialised models, the array and the models live separate lives:
every program that makes no further `Param` of it has the same effect on all objects as the program without its
assignments to the array, and the array holds what was assigned to it. -/
theorem array_is_forgotten {s : State V T} {Y : List Id} (h : Owned spoil b n s Y) (hm : ∀ y ∈ Y, s.InModel y)
    {ds : List (Deal V T)} (hl : s.Legals spoil b n ds) (hn : ∀ d ∈ ds, d ≠ .make) :
    (s.deals spoil b n ds).heap = (s.deals spoil b n (unpoked ds)).heap ∧
    (∀ z i, (s.deals spoil b n ds).mem.read z i = (s.deals spoil b n (unpoked ds)).mem.read z i) ∧
    ∀ i, (s.deals spoil b n ds).mem.cell b i = poked (fun i => s.mem.cell b i) ds i := by
  have hle := h.lent
  have hf : Free b s.mem := ⟨hle.held.lt, hle.held.pos, fun z hz => by
    have hy := (hle.held.hold z hz).1
    exact absurd hz (hle.parted hy (hm z hy).some (hm z hy).inside (hm z hy).done)⟩
  have e : s.mem.blur b (fun i => s.mem.cell b i) = s.mem := by
    have : (fun b' i => if b' = b then s.mem.cell b i else s.mem.cell b' i) = s.mem.cell := by
      funext b' i
      split
      · rename_i h; rw [h]
      · rfl
    exact congrArg (fun f => Mem.mk s.mem.arr s.mem.owns f s.mem.next s.mem.freed s.mem.bad) this
  have es : (⟨s.heap, s.mem.blur b (fun i => s.mem.cell b i)⟩ : State V T) = s := by rw [e]
  obtain ⟨m', h1, h2, h3⟩ := run_blur (spoil := spoil) (h := s.heap) hf (by rw [es]; exact h) (by rw [es]; exact hl) hn
  rw [es] at h3
  have e1 : (s.deals spoil b n (unpoked ds)).mem = m' := congrArg State.mem h1
  refine ⟨by rw [h3], fun z i => ?_, fun i => ?_⟩
  · rw [h3, e1]
    show (if (m'.view z).buf = b then _ else m'.cell _ _) = m'.read z i
    rw [if_neg (fun hz => (h2.hold z hz).1)]; rfl
  · rw [h3]
    show (if b = b then poked _ ds i else _) = _
    rw [if_pos rfl]

/-! ### Examples -/

/-- `Legal`, decided. -/
def legalB (n : Nat) (s : State V T) : Deal V T → Bool
  | .call e => s.admissibleB e
  | .copy x => decide (x < s.heap.next) && (match s.heap.parent x with
    | none => true
    | some p => decide (p ∈ (s.heap.copySearch x).trace))
  | .make => true
  | .poke i _ => decide (i < n)

/-- `Legals`, decided. -/
def legalsB (spoil : Nat → Nat → V) (b n : Nat) : State V T → List (Deal V T) → Bool
  | _, [] => true
  | s, d :: ds => s.legalB n d && legalsB spoil b n (s.deal spoil b n d) ds

theorem legalB_sound {s : State V T} (w : s.heap.WF) {d : Deal V T} (hb : s.legalB n d = true) : s.Legal n d := by
  cases d with
  | call e => exact admissibleB_sound w hb
  | copy x =>
    simp only [legalB, Bool.and_eq_true, decide_eq_true_eq] at hb
    refine ⟨hb.1, fun p hp => ?_⟩
    have := hb.2
    rw [hp] at this
    simpa using this
  | make => trivial
  | poke i v => exact (of_decide_eq_true hb : i < n)

theorem legalsB_sound : ∀ (ds : List (Deal V T)) {s : State V T} {Y : List Id}, Owned spoil b n s Y →
    s.legalsB spoil b n ds = true → s.Legals spoil b n ds
  | [], _, _, _, _ => trivial
  | d :: ds, s, Y, h, hb => by
    simp only [legalsB, Bool.and_eq_true] at hb
    have hl := legalB_sound (n := n) h.lent.heap.inv.1 hb.1
    exact ⟨hl, legalsB_sound ds (.step h hl) hb.2⟩

/-- `X = np.array([7., 8.])`. -/
def lendStart : State Nat Nat := (State.empty fun _ _ => 0).buy [7, 8] 0

theorem lendStart_owned : Owned demoSpoil 1 2 lendStart [] :=
  .buy [7, 8] 0 (.empty fun _ _ => 0) rfl rfl

/-- `a = Param('a', X); b = Param('b', X)`, and an object `m` in whose constructor both are linked. -/
def lendSteps : List (Deal Nat Nat) :=
  [.make, .make, .call (.heap .newNode), .call (.heap (.link 2 0 none)), .call (.heap (.link 2 1 none)),
   .call (.heap (.finishInit 2 true))]

/-- The state after these calls. -/
def lendDemo : State Nat Nat := lendStart.deals demoSpoil 1 2 lendSteps

theorem lendDemo_owned : Owned demoSpoil 1 2 lendDemo [1, 0] := by
  have := lendStart_owned.run demoSpoil (ds := lendSteps) (legalsB_sound _ lendStart_owned (by decide +kernel))
  have e : growth demoSpoil 1 2 lendStart [] lendSteps = [1, 0] := by decide +kernel
  rw [e] at this
  exact this

theorem lendDemo_in : ∀ y ∈ [1, 0], lendDemo.InModel y := by
  intro y hy
  have : y = 1 ∨ y = 0 := by simpa using hy
  rcases this with rfl | rfl <;> refine ⟨?_, ?_, ?_, ?_⟩ <;> decide +kernel

/-- Before it is linked: `X[1] = 5; a[0] = 6; b = Param('b', X); c = a.copy(); X[0] = 4`. -/
def lendOpen : List (Deal Nat Nat) := [.poke 1 5, .call (.write 0 0 6), .make, .copy 0, .poke 0 4]

theorem lendOpen_legal : (lendStart.make 1 2).Legals demoSpoil 1 2 lendOpen :=
  legalsB_sound lendOpen (Owned.step (d := .make) lendStart_owned trivial) (by decide +kernel)

example : ((lendStart.make 1 2).deals demoSpoil 1 2 lendOpen).mem.read 0 1 =
    ((lendStart.make 1 2).deals demoSpoil 1 2 lendOpen).mem.cell 1 1 :=
  param_is_array lendStart_owned lendOpen_legal (fun d hd => by
    simp only [lendOpen, List.mem_cons, List.not_mem_nil, or_false] at hd
    rcases hd with rfl | rfl | rfl | rfl | rfl <;> exact id) 1

/-- `X`, `a`, `b` and the copy afterwards: the copy has kept the values of the time when it was made. -/
example :
    let s := (lendStart.make 1 2).deals demoSpoil 1 2 lendOpen
    [s.mem.cell 1 0, s.mem.cell 1 1] = [4, 5] ∧ s.values 0 = [4, 5] ∧ s.values 1 = [4, 5] ∧ s.values 2 = [6, 5] := by
  decide +kernel

/-- After both are linked: `X[0] = 1; a[1] = 2; b[1] = 3`, `m.unlink_parameter(a); X[1] = 9; a[0] = 0`. -/
def lendMore : List (Deal Nat Nat) :=
  [.poke 0 1, .call (.write 0 1 2), .call (.write 1 1 3), .call (.heap (.unlink 2 0)), .poke 1 9, .call (.write 0 0 0)]

theorem lendMore_legal : lendDemo.Legals demoSpoil 1 2 lendMore :=
  legalsB_sound lendMore lendDemo_owned (by decide +kernel)

example : Apart (spoil := demoSpoil) 1 (lendDemo.deals demoSpoil 1 2 lendMore) 0 :=
  parted_for_good lendDemo_owned (by decide) (lendDemo_in 0 (by decide)) lendMore_legal

example : (lendDemo.deals demoSpoil 1 2 lendMore).mem.cell 1 1 = poked (fun i => lendDemo.mem.cell 1 i) lendMore 1 :=
  (array_is_forgotten lendDemo_owned lendDemo_in lendMore_legal (fun d hd => by
    simp only [lendMore, List.mem_cons, List.not_mem_nil, or_false] at hd
    rcases hd with rfl | rfl | rfl | rfl | rfl | rfl <;> exact fun h => by cases h)).2.2 1

example :
    let s := lendDemo.deals demoSpoil 1 2 lendMore
    lendDemo.values 2 = [7, 8, 7, 8] ∧ [s.mem.cell 1 0, s.mem.cell 1 1] = [1, 9] ∧
      s.values 0 = [0, 2] ∧ s.values 1 = [7, 3] := by
  decide +kernel

/-- The documentation of `Param` (param.py:73-75) says that the memory of the array is the memory of the `Param`.
In a model it is not: an assignment to the array does not reach the `Param`. -/
theorem param_is_array_fails : ∃ (s : State Nat Nat) (y : Id), Owned demoSpoil 1 2 s [1, 0] ∧ y ∈ [1, 0] ∧
    (s.poke 1 0 5).mem.cell 1 0 = 5 ∧ (s.poke 1 0 5).mem.read y 0 = 7 :=
  ⟨lendDemo, 0, lendDemo_owned, by decide, by decide +kernel, by decide +kernel⟩

end State

end Paramz.Memory

import Verif.Opt.Whole
import Verif.Hier.Tiling

/-! Helper lemmas: windows, rounds, what calls keep. -/

set_option linter.unusedSectionVars false

namespace Paramz.Opt

open IndexOps (Arr lookup)
open Hier (Heap Con Id upd upd_same upd_ne)
open Hier.Heap (Target Reach Same Ctx Covers)
open Hier.Graph (Anc At)
open Notify (changedOf Awake Above)

variable {V T : Type} [DecidableEq T]

/-! ### Windows -/

theorem getElem?_splice {a b : List V} {n : Nat} (h : n + b.length ≤ a.length) (j : Nat) :
    (Whole.splice a n b)[j]? = if n ≤ j ∧ j < n + b.length then b[j - n]? else a[j]? := by
  unfold Whole.splice
  by_cases h1 : j < n
  · rw [if_neg (by omega), List.getElem?_append_left (by simp; omega), List.getElem?_append_left (by simp; omega),
      List.getElem?_take_of_lt h1]
  · by_cases h2 : j < n + b.length
    · rw [if_pos ⟨by omega, h2⟩, List.getElem?_append_left (by simp; omega), List.getElem?_append_right (by simp; omega)]
      congr 1
      simp; omega
    · rw [if_neg (by omega), List.getElem?_append_right (by simp; omega), List.getElem?_drop]
      congr 1
      simp; omega

theorem splice_length {a b : List V} {n : Nat} (h : n + b.length ≤ a.length) :
    (Whole.splice a n b).length = a.length := by
  unfold Whole.splice; simp; omega

theorem getElem?_object (w : Whole V T) (x : Id) (i : Nat) :
    (w.object x).vals[i]? = if i < w.heap.size x then w.vals[w.start x + i]? else none := by
  show ((w.vals.drop (w.start x)).take (w.heap.size x))[i]? = _
  rw [List.getElem?_take, List.getElem?_drop]

theorem Sound.wf {w : Whole V T} (s : Sound w) : w.heap.WF := s.reach.wf

theorem Sound.has_root {w : Whole V T} : w.Has w.root := .refl

theorem Sound.pos {w : Whole V T} (s : Sound w) {x : Id} (hx : w.Has x) : At w.heap.toGraph w.root x (w.start x) := by
  obtain ⟨n, hn⟩ := s.wf.skel.exists_at hx
  rw [show w.start x = n from s.wf.skel.offsetFor_of_root s.root hn]
  exact hn

theorem Sound.window {w : Whole V T} (s : Sound w) {x : Id} (hx : w.Has x) :
    w.start x + w.heap.size x ≤ w.vals.length := by
  rw [s.vals]; exact (s.pos hx).window s.wf.skel s.wf.sized

theorem Sound.has_lt {w : Whole V T} (s : Sound w) {x : Id} (hx : w.Has x) : x < w.heap.next :=
  s.wf.skel.desc_lt hx s.lt

theorem Sound.held {w : Whole V T} (s : Sound w) {x : Id} (hx : w.Has x) : Held (w.object x) where
  reach := s.reach
  lt := s.has_lt hx
  vals := by
    have := s.window hx
    show ((w.vals.drop (w.start x)).take (w.heap.size x)).length = w.heap.size x
    simp; omega

theorem Sound.start_root {w : Whole V T} (s : Sound w) : w.start w.root = 0 := Hier.Graph.offsetFor_root s.root

theorem Sound.ready {w : Whole V T} (s : Sound w) : Ready (w.object w.root) where
  toHeld := s.held .refl
  root := s.root
  node := s.node
  inInit := s.inInit
  inited := s.inited

theorem Sound.object_root {w : Whole V T} (s : Sound w) : (w.object w.root).vals = w.vals := by
  show ((w.vals.drop (w.start w.root)).take (w.heap.size w.root)) = w.vals
  rw [s.start_root, ← s.vals]; simp

/-- Constraints of an object are those of the model in its window. -/
theorem Sound.mem_cons {w : Whole V T} (s : Sound w) {x : Id} (hx : w.Has x) {c : Con T} {i : Nat} :
    i ∈ (w.object x).cons c ↔ i < w.heap.size x ∧ w.start x + i ∈ (w.object w.root).cons c := by
  rw [s.ready.cons_eq]
  show i ∈ w.heap.constraints x c ↔ _
  rw [s.wf.mem_constraints s.lt s.root (s.pos hx), Nat.add_comm]
  rfl

theorem Sound.via {w : Whole V T} (s : Sound w) {x : Id} (hx : w.Has x) {g : T → V → V} {i : Nat} {v u : V}
    (hi : i < w.heap.size x) : Via (w.object x) g i v u ↔ Via (w.object w.root) g (w.start x + i) v u := by
  unfold Via
  have : ∀ t, i ∈ (w.object x).cons (.tr t) ↔ w.start x + i ∈ (w.object w.root).cons (.tr t) :=
    fun t => (s.mem_cons hx).trans ⟨fun h => h.2, fun h => ⟨hi, h⟩⟩
  constructor
  · rintro ⟨h1, h2⟩
    exact ⟨fun t ht => h1 t ((this t).mpr ht), fun hn => h2 (fun t ht => hn t ((this t).mp ht))⟩
  · rintro ⟨h1, h2⟩
    exact ⟨fun t ht => h1 t ((this t).mp ht), fun hn => h2 (fun t ht => hn t ((this t).mpr ht))⟩

/-- The mask of the setter is right for every object. -/
theorem Sound.setterMask {w : Whole V T} (s : Sound w) {x : Id} (hx : w.Has x) :
    (w.object x).setterMask = if (w.object x).hasFixes
      then some (Heap.maskOf (w.object x).size ((w.object x).cons .fixed)) else none := by
  by_cases h : x = w.root
  · subst h; exact s.ready.setterMask_eq
  · have hp : w.heap.parent x ≠ none := by
      intro hp
      exact h ((Hier.Graph.anc_root hp).mp hx).symm
    unfold State.setterMask State.hasFixes
    by_cases hf : (w.object x).cons .fixed ≠ []
    · rw [if_pos ⟨hp, hf⟩, if_pos (by simpa using hf)]
    · rw [if_neg (fun h => hf h.2), if_neg (by simpa using hf), if_neg (by simpa using hf)]

/-! ### Rounds -/

theorem Sound.wired {w : Whole V T} (s : Sound w) : Notify.Wired w.net where
  reach := s.reach
  sorted := fun x _ => by
    show Notify.Sorted (Notify.std w.heap x)
    unfold Notify.Sorted Notify.std
    cases w.heap.leaf x <;> cases w.heap.parent x <;> simp
  regs := fun x _ => by
    show (Notify.std w.heap x).filter _ = Notify.std w.heap x
    unfold Notify.std
    cases w.heap.leaf x <;> cases w.heap.parent x <;> simp [Notify.isStd]

theorem takeWhile_true (L : List Id) : L.takeWhile (fun _ => true) = L := by
  induction L with
  | nil => rfl
  | cons a L ih => rw [List.takeWhile_cons_of_pos rfl, ih]

theorem anc_of_leaf {g : Hier.Graph} (s : Hier.Graph.Skel g) {y m : Id} (hl : g.leaf y = true) (h : Anc g y m) :
    y = m := by
  induction h with
  | refl => rfl
  | @step p c _ hp ih =>
    rw [← ih, ] at hp
    rw [s.kids_not_leaf hp] at hl
    cases hl

/-- Who hears of a notification. -/
theorem Sound.mem_notify {w : Whole V T} (s : Sound w) (hon : w.on = true) {m : Id} (hm : w.Has m) (y : Id) :
    y ∈ changedOf (w.net.notify m none) ↔ w.heap.leaf y = false ∧ Anc w.heap.toGraph y m := by
  obtain ⟨L, hL, -⟩ := Above.exists_short s.wf.skel m
  rw [Notify.notify_changed s.wired (s.has_lt hm) hL hon]
  have hon' : w.net.on = fun _ => true := by funext z; exact hon
  rw [hon', takeWhile_true, List.mem_append, hL.mem s.wf.skel]
  show (y ∈ (if w.heap.leaf m then [] else [m]) ∨ _) ↔ _
  constructor
  · rintro (h | ⟨h1, h2⟩)
    · cases hc : w.heap.leaf m with
      | true => rw [hc] at h; simp at h
      | false =>
        rw [hc] at h
        have : y = m := by simpa using h
        subst this
        exact ⟨hc, .refl⟩
    · refine ⟨?_, h1⟩
      cases hc : w.heap.leaf y with
      | false => rfl
      | true => exact absurd (anc_of_leaf s.wf.skel hc h1) h2
  · rintro ⟨h1, h2⟩
    by_cases hy : y = m
    · subst hy; left; simp [h1]
    · right; exact ⟨h2, hy⟩

/-- Who hears of an update. -/
theorem Sound.mem_trigger {w : Whole V T} (s : Sound w) (hon : w.on = true) {m : Id} (hm : w.Has m)
    (hi : w.heap.inInit m = false) (y : Id) :
    y ∈ changedOf (w.net.triggerUpdate m true) ↔
      w.heap.leaf y = false ∧ (Anc w.heap.toGraph y m ∨ Awake w.heap m y) := by
  obtain ⟨L, hL, -⟩ := Above.exists_short s.wf.skel m
  have hon' : w.net.on = fun _ => true := by funext z; exact hon
  unfold Notify.State.triggerUpdate
  rw [hon', show w.net.heap.inInit m = false from hi]
  simp only [Bool.not_true, Bool.or_self, Bool.false_eq_true, if_false]
  rw [Notify.triggerF_spec s.wired (s.has_lt hm) hL (by rw [hon']) true, if_pos rfl, hon', takeWhile_true,
    List.mem_append, hL.mem s.wf.skel]
  obtain ⟨d, hd, hb⟩ := s.wf.skel.rank
  show (y ∈ Notify.postF w.heap.toGraph.fuel w.heap.toGraph w.heap.isFixed (fun _ => true) m ∨ _) ↔ _
  rw [Notify.mem_postF (h := w.heap) s.wf.skel hd hb _ m (by unfold Hier.Graph.fuel; omega)]
  constructor
  · rintro (⟨h1, -, h2⟩ | ⟨h1, h2⟩)
    · exact ⟨h1, .inr h2⟩
    · refine ⟨?_, .inl h1⟩
      cases hc : w.heap.leaf y with
      | false => rfl
      | true => exact absurd (anc_of_leaf s.wf.skel hc h1) h2
  · rintro ⟨h1, h2 | h2⟩
    · by_cases hy : y = m
      · subst hy; exact .inl ⟨h1, rfl, .refl⟩
      · exact .inr ⟨h2, hy⟩
    · exact .inl ⟨h1, rfl, h2⟩

/-! ### What calls keep -/

@[simp] theorem tell_heap (w : Whole V T) (l : List Notify.Call) : (w.tell l).heap = w.heap := rfl
@[simp] theorem tell_root (w : Whole V T) (l : List Notify.Call) : (w.tell l).root = w.root := rfl
@[simp] theorem tell_vals (w : Whole V T) (l : List Notify.Call) : (w.tell l).vals = w.vals := rfl
@[simp] theorem tell_copies (w : Whole V T) (l : List Notify.Call) : (w.tell l).copies = w.copies := rfl
@[simp] theorem tell_on (w : Whole V T) (l : List Notify.Call) : (w.tell l).on = w.on := rfl

theorem Sound.heap {w w' : Whole V T} (s : Sound w) (hr : Reach w'.heap) (sm : Same w.heap w'.heap)
    (e2 : w'.root = w.root) (e3 : w'.vals.length = w.vals.length) : Sound w' := by
  obtain ⟨-, a, b, c, d, e, f⟩ := s
  refine ⟨hr, ?_, ?_, ?_, ?_, ?_, ?_⟩
  · rw [e2, sm.graph]; exact a
  · rw [e2, sm.graph]; exact b
  · rw [e2, sm.graph]; exact c
  · rw [e2, sm.inInit]; exact d
  · rw [e2, sm.inited]; exact e
  · rw [e2, sm.graph, e3]; exact f

theorem Sound.keep {w w' : Whole V T} (s : Sound w) (e1 : w'.heap = w.heap) (e2 : w'.root = w.root)
    (e3 : w'.vals.length = w.vals.length) : Sound w' :=
  s.heap (e1 ▸ s.reach) (e1 ▸ .refl _) e2 e3

theorem setVals_fits (o : Ops V T) {w : Whole V T} (s : Sound w) {x : Id} (hx : w.Has x) (p : List V) :
    ((w.object x).setVals o p).length = w.heap.size x :=
  (setVals_held o (s.held hx) (s.setterMask hx) p).1

theorem put_sound (o : Ops V T) {w : Whole V T} (s : Sound w) {x : Id} (hx : w.Has x) (p : List V) :
    Sound (w.put o x p) := by
  refine s.keep rfl rfl ?_
  show (Whole.splice _ _ _).length = _
  rw [splice_length (by rw [setVals_fits o s hx]; exact s.window hx)]

/-- Reading changes at most a mask. -/
theorem read_heap (o : Ops V T) (w : Whole V T) (x : Id) (junk : List V) :
    (w.read o x junk).1.heap = w.heap.readOptimizerArray x := by
  simp only [Whole.read, State.readOpt, Heap.readOptimizerArray]
  by_cases hf : w.heap.constraints x .fixed = []
  · have h1 : (w.object x).hasFixes = false := decide_eq_false (fun h => h hf)
    rw [h1, if_neg (by simp), if_pos hf]; rfl
  · have h1 : (w.object x).hasFixes = true := decide_eq_true hf
    rw [h1, if_pos rfl, if_neg hf]; rfl

theorem same_read (h : Heap T) (x : Id) : Same h (h.readOptimizerArray x) := by
  obtain ⟨F, e⟩ := Hier.Heap.readOptimizerArray_eq h x
  rw [e]
  exact ⟨rfl, rfl, rfl, rfl, rfl, rfl⟩

theorem splice_self {w : Whole V T} (s : Sound w) {x : Id} (hx : w.Has x) :
    Whole.splice w.vals (w.start x) (w.object x).vals = w.vals := by
  have hl : (w.object x).vals.length = w.heap.size x := (s.held hx).vals
  have hw := s.window hx
  apply List.ext_getElem?
  intro j
  rw [getElem?_splice (by omega)]
  split
  · rw [getElem?_object, if_pos (by omega)]
    congr 1; omega
  · rfl

theorem tell_nil (w : Whole V T) : w.tell [] = w := by
  unfold Whole.tell changedOf; simp

theorem trigger_off {w : Whole V T} (hon : w.on = false) (x : Id) : w.net.triggerUpdate x true = [] := by
  unfold Notify.State.triggerUpdate
  rw [show w.net.on x = false from hon]; rfl

/-- Updates off. -/
def Whole.off (w : Whole V T) : Whole V T := { w with on := false }

/-- `randomize` is the setter with the values drawn. -/
theorem randomize_eq_set (o : Ops V T) {w : Whole V T} (s : Sound w) {x : Id} (hx : w.Has x) (draws : List V) :
    w.randomize o x draws = w.set o x draws := by
  have e1 : w.updateModel x false = w.off := by
    simp only [Whole.updateModel]
    rw [trigger_off rfl, tell_nil]; rfl
  have e2 : w.off.set o x draws = (w.put o x draws).off := by
    simp only [Whole.set]
    rw [trigger_off rfl, tell_nil]; rfl
  have s2 : Sound (w.put o x draws).off := (put_sound o s hx draws).keep rfl rfl rfl
  have hx2 : (w.put o x draws).off.Has x := hx
  have e3 := splice_self s2 hx2
  have e4 : assign ((w.put o x draws).off.object x).vals (Heap.maskOf ((w.put o x draws).off.heap.size x)
      ((w.put o x draws).off.heap.constraints x .fixed)) (select ((w.put o x draws).off.object x).vals
        (Heap.maskOf ((w.put o x draws).off.heap.size x) ((w.put o x draws).off.heap.constraints x .fixed))) =
      ((w.put o x draws).off.object x).vals :=
    assign_select_self (by rw [maskOf_length]; exact (s2.held hx2).vals)
  simp only [Whole.randomize]
  rw [e1, e2, e4, e3]
  rfl

theorem exec_sound (o : Ops V T) {w : Whole V T} (s : Sound w) {a : Act V T} (ha : a.OK w) : Sound (a.exec o w) := by
  have hset : ∀ {x p}, w.Has x → Sound (w.set o x p) := fun hx => (put_sound o s hx _).keep rfl rfl rfl
  cases a with
  | read x junk =>
    have e := read_heap o w x junk
    refine s.heap ?_ ?_ rfl rfl
    · show Reach (w.read o x junk).1.heap
      rw [e]; exact .read s.reach
    · show Same w.heap (w.read o x junk).1.heap
      rw [e]; exact same_read _ _
  | set x p => exact hset ha.1
  | randomize x d =>
    show Sound (w.randomize o x d)
    rw [randomize_eq_set o s ha.1]; exact hset ha.1
  | updateModel x b => exact s.keep rfl rfl rfl
  | write x ind vs => exact s.keep rfl rfl (put_length _ _ _)
  | constrain x sh c =>
    obtain ⟨-, sm⟩ := (Hier.Heap.constraining_wf s.wf ha.2.1).1 c
    have hr : Reach (w.heap.constrain x c) := .step (e := .constrain x c) s.reach ha.2.1
    cases c with
    | fixed => exact s.heap hr sm rfl rfl
    | tr t =>
      refine s.heap hr sm rfl ?_
      show (if sh then _ else w.vals : List V).length = _
      split
      · exact put_length _ _ _
      · rfl
  | unconstrain x ts =>
    exact s.heap (.step (e := .unconstrain x ts) s.reach ha.2) ((Hier.Heap.constraining_wf s.wf ha.2).2.1 ts).2 rfl rfl
  | fix x =>
    exact s.heap (.step (e := .fix x) s.reach ha.2) (Hier.Heap.constraining_wf s.wf ha.2).2.2.1.2 rfl rfl
  | unfix x =>
    exact s.heap (.step (e := .unfix x) s.reach ha.2) (Hier.Heap.constraining_wf s.wf ha.2).2.2.2.2 rfl rfl

theorem Runs.sound {o : Ops V T} {w w' : Whole V T} (h : Runs o w w') (s : Sound w) : Sound w' := by
  induction h with
  | nil => exact s
  | snoc _ a ha ih => exact exec_sound o ih ha

end Paramz.Opt

import Verif.Mem.Lend
import Verif.Mem.GradLemmas

/-!
# `Param`s made of an array of the user: the invariant
-/

set_option linter.unusedSectionVars false

namespace Paramz.Memory

open Hier (Id Graph Heap upd upd_same upd_ne pick)
open Hier.Graph (Skel Sized At Anc)

variable {V T : Type} [DecidableEq T] (spoil : Nat → Nat → V)

namespace Mem

theorem setstateF_next (g : Graph) : ∀ (n : Nat) (x : Id) (m : Mem V), m.next ≤ (setstateF spoil g n m x).next
  | 0, _, _ => Nat.le_refl _
  | n + 1, x, m => by
    have key : ∀ (L : List Id) (m : Mem V), m.next ≤ (L.foldl (fun m c => setstateF spoil g n m c) m).next := by
      intro L
      induction L with
      | nil => exact fun m => Nat.le_refl _
      | cons c L ih => exact fun m => Nat.le_trans (setstateF_next g n c m) (ih _)
    unfold setstateF
    simp only []
    split
    · exact key _ m
    · exact Nat.le_trans (key _ m) (connect_next spoil g _ x)

end Mem

namespace State

theorem runs_next : ∀ (L : List (Graph × Id)) (m : Mem V), m.next ≤ (runs spoil L m).next
  | [], _ => Nat.le_refl _
  | gr :: L, m => Nat.le_trans (Mem.connect_next spoil gr.1 m gr.2) (runs_next L _)

theorem copy_next_le (s : State V T) (x : Id) : s.mem.next ≤ (s.copy spoil x).1.mem.next := by
  have h1 : s.mem.next ≤ (s.arrayRead x).next := by
    unfold arrayRead
    split
    · exact Nat.le_refl _
    · exact Mem.ensure_next_le _ _ _
  have h2 : (s.arrayRead x).next ≤ ((s.arrayRead x).rawCopy s.heap.toGraph x).next := Nat.le_add_right _ _
  have h3 := Mem.setstateF_next spoil (s.heap.rawCopy x).toGraph (s.heap.rawCopy x).toGraph.fuel (s.heap.copyOf x x)
    ((s.arrayRead x).rawCopy s.heap.toGraph x)
  rw [copy_mem_eq]
  simp only []
  split
  · omega
  · have := Mem.connect_next spoil (s.heap.rawCopy x).toGraph
      (((s.arrayRead x).rawCopy s.heap.toGraph x).setstateF spoil (s.heap.rawCopy x).toGraph
        (s.heap.rawCopy x).toGraph.fuel (s.heap.copyOf x x)) (s.heap.copyOf x x)
    omega

theorem exec_next_le {s : State V T} (w : s.heap.WF) {e : Ev V T} (ha : s.Admissible e) :
    s.mem.next ≤ (s.exec spoil e).1.mem.next := by
  cases e with
  | write x i v => exact Nat.le_refl _
  | heap e =>
    cases hq : quiet e with
    | true =>
      obtain ⟨L, -, hm, -⟩ := exec_moves spoil (V := V) w e ha hq
      have := hm s.mem
      dsimp only at this
      show _ ≤ ((⟨s.heap, s.mem⟩ : State V T).exec spoil (.heap e)).1.mem.next
      rw [this]
      exact runs_next spoil L _
    | false =>
      cases e with
      | newParam n => exact Nat.le_succ _
      | newNode => exact Nat.le_refl _
      | _ => cases hq

theorem Reach.mem_pos {s : State V T} (h : Reach spoil s) : 0 < s.mem.next := by
  induction h with
  | empty cell => exact Nat.one_pos
  | @step s e hr ha ih => exact Nat.lt_of_lt_of_le ih (exec_next_le spoil hr.heap.inv.1 ha)
  | @copy s x hr ok ih => exact Nat.lt_of_lt_of_le ih (copy_next_le spoil s x)

/-- As `Reach.linked_bounded`, one call from any state. -/
theorem exec_linked_bounded {s : State V T} (w : s.heap.WF) (ih : Linked s) (hb : Bounded s.mem) {e : Ev V T}
    (ha : s.Admissible e) : Linked (s.exec spoil e).1 ∧ Bounded (s.exec spoil e).1.mem := by
  cases e with
  | write x i v => exact ⟨⟨ih.lo, ih.fits, ih.calm⟩, hb⟩
  | heap e =>
    cases e with
    | newParam n =>
      refine ⟨newObj_linked w ih true n false _ (fun y hy => upd_ne _ _ hy) (fun y hy => upd_ne _ _ hy)
        (fun _ => ⟨upd_same _ _ _, upd_same _ _ _⟩), ?_⟩
      intro y v hv
      have hv : upd s.mem.arr s.heap.next (some ⟨s.mem.next, 0, n⟩) y = some v := hv
      show v.buf < s.mem.next + 1
      by_cases hy : y = s.heap.next
      · subst hy; rw [upd_same] at hv; cases hv; exact Nat.lt_succ_self _
      · rw [upd_ne _ _ hy] at hv
        exact Nat.lt_succ_of_lt (hb y v hv)
    | newNode =>
      exact ⟨newObj_linked w ih false 0 true s.mem (fun y _ => rfl) (fun y _ => rfl) (fun h => by cases h),
        hb⟩
    | finishInit x i =>
      refine ⟨finishInit_linked spoil w ih ha.1 i, ?_⟩
      have w1 := (Heap.finishInit_wf w ha.1 false).1
      show Bounded (s.finishInit spoil x i).mem
      unfold finishInit
      cases i with
      | false => exact hb
      | true =>
        exact initialize_bounded spoil (s := s.on fun h =>
          { h with inInit := upd h.inInit x false, inited := upd h.inited x (some false) }) w1 ih.lo hb x
    | init x =>
      exact ⟨initialize_linked spoil w ih ha, initialize_bounded spoil w ih.lo hb x⟩
    | link p x index => exact ⟨link_linked spoil w ih ha, link_bounded spoil w ih hb ha⟩
    | unlink q x =>
      refine ⟨unlink_linked spoil w ih q x, ?_⟩
      show Bounded (s.unlink spoil q x).1.mem
      unfold unlink
      split
      · exact hb
      · split
        · rename_i hx
          obtain ⟨A, B, hk⟩ := List.append_of_mem hx
          exact unlinkChild_bounded spoil w ih hb hk
        · exact hb
    | constrain x c => exact ⟨same_linked ih ((Heap.constraining_wf w ha).1 c).2, hb⟩
    | unconstrain x cs => exact ⟨same_linked ih ((Heap.constraining_wf w ha).2.1 cs).2, hb⟩
    | fix x => exact ⟨same_linked ih (Heap.constraining_wf w ha).2.2.1.2, hb⟩
    | unfix x => exact ⟨same_linked ih (Heap.constraining_wf w ha).2.2.2.2, hb⟩

/-! ### Steps that leave the array alone -/

/-- Calls and copies that do not assign to an object of `Y`. -/
def Away (Y : Id → Prop) : Deal V T → Prop
  | .call (.write x _ _) => ¬ Y x
  | .call (.heap _) => True
  | .copy _ => True
  | .make => False
  | .poke _ _ => False

variable {b n : Nat} {Y : Id → Prop}

theorem newParam_tame (m : Mem V) (x k : Nat) : Mem.Tame b Y (fun m => m.newParam x k) m := by
  intro hm
  obtain ⟨a1, a2, a3, a4⟩ := Mem.alloc_tame (b := b) (Y := Y) m x k hm
  have hb : ∀ z, ((m.newParam x k).view z).buf = b → z ≠ x := by
    intro z hz e
    subst e
    have : ((m.newParam z k).view z).buf = m.next := by
      show ((upd m.arr z _ z).getD _).buf = _
      rw [upd_same]; rfl
    have := hm.lt
    omega
  refine ⟨⟨a1.lt, hm.pos, fun z hz => ?_⟩, fun _ => rfl, a3, fun _ _ => rfl⟩
  refine ⟨(a1.hold z hz).1, ?_⟩
  show upd m.owns x false z = false
  rw [upd_ne _ _ (hb z hz)]
  exact (hm.hold z (a3 z hz)).2

theorem write_tame (m : Mem V) {x : Id} (i : Nat) (v : V) (hx : ¬ Y x) : Mem.Tame b Y (fun m => m.write x i v) m := by
  intro hm
  refine ⟨⟨hm.lt, hm.pos, hm.hold⟩, fun j => ?_, fun _ h => h, fun _ d => ?_⟩
  · show (if b = (m.view x).buf ∧ _ then v else _) = _
    rw [if_neg (fun h => hm.off hx h.1.symm)]
  · have e : ((m.blur b d).write x i v).cell = ((m.write x i v).blur b d).cell := by
      funext b' j
      show (if b' = (m.view x).buf ∧ j = (m.view x).off + i then v else if b' = b then d j else m.cell b' j) =
        if b' = b then d j else if b' = (m.view x).buf ∧ j = (m.view x).off + i then v else m.cell b' j
      by_cases hb : b' = b
      · subst hb
        rw [if_neg (fun h => hm.off hx h.1.symm), if_pos rfl, if_pos rfl]
      · rw [if_neg hb, if_neg hb]
    show Mem.mk _ _ ((m.blur b d).write x i v).cell _ _ _ = Mem.mk _ _ ((m.write x i v).blur b d).cell _ _ _
    rw [e]; rfl

theorem raw_kids (h : Heap T) (x : Id) {y : Id} (hy : y < h.next) : (h.rawCopy x).kids y = h.kids y := by
  show (match pick (h.toGraph.subtree x) h.next y with | none => h.kids y | some y => _) = _
  rw [Hier.pick_none.mpr (.inl hy)]

theorem raw_leaf (h : Heap T) (x : Id) {y : Id} (hy : y < h.next) : (h.rawCopy x).leaf y = h.leaf y := by
  show (match pick (h.toGraph.subtree x) h.next y with | none => h.leaf y | some y => _) = _
  rw [Hier.pick_none.mpr (.inl hy)]

/-- The copies are not made children of anything old, and old children stay. -/
theorem raw_mem (h : Heap T) (x : Id) {y p : Id} (hy : y < h.next) (hm : y ∈ (h.rawCopy x).kids p) : y ∈ h.kids p := by
  have hm : y ∈ (match pick (h.toGraph.subtree x) h.next p with
    | none => h.kids p | some q => (h.kids q).map (h.copyOf x)) := hm
  cases hp : pick (h.toGraph.subtree x) h.next p with
  | none => rw [hp] at hm; exact hm
  | some q =>
    rw [hp] at hm
    obtain ⟨c, -, hc⟩ := List.mem_map.mp hm
    have hc : h.next + (h.toGraph.subtree x).idxOf c = y := hc
    exfalso
    rw [← hc] at hy
    exact absurd hy (Nat.not_lt.mpr (Nat.le_add_right ..))

theorem copy_tame (h : Heap T) (x : Id) (m : Mem V) (hY : ∀ z, Y z → z < h.next ∧ h.kids z = []) :
    Mem.Tame b Y (fun m => ((⟨h, m⟩ : State V T).copy spoil x).1.mem) m := by
  have hk : ∀ z, Y z → (h.rawCopy x).toGraph.kids z = [] := fun z hz => by
    rw [raw_kids h x (hY z hz).1]; exact (hY z hz).2
  have e : (fun m => ((⟨h, m⟩ : State V T).copy spoil x).1.mem) = fun m =>
      (fun m : Mem V => if h.leaf x then m else m.connect spoil (h.rawCopy x).toGraph (h.copyOf x x))
      ((((⟨h, m⟩ : State V T).arrayRead x).rawCopy h.toGraph x).setstateF spoil
          (h.rawCopy x).toGraph (h.rawCopy x).toGraph.fuel (h.copyOf x x)) := by
    funext m; exact copy_mem_eq spoil (⟨h, m⟩ : State V T) x
  rw [e]
  have t1 : Mem.Tame b Y (fun m => (⟨h, m⟩ : State V T).arrayRead x) m := by
    unfold arrayRead
    simp only []
    cases h.leaf x with
    | true => exact Mem.Tame.id m
    | false => exact Mem.ensure_tame m x
  have t2 := t1.comp (f' := fun m => m.rawCopy h.toGraph x) (Mem.rawCopy_tame _ x _)
  have t3 := t2.comp (f' := fun m => m.setstateF spoil (h.rawCopy x).toGraph (h.rawCopy x).toGraph.fuel (h.copyOf x x))
    (Mem.setstateF_tame spoil hk _ _ _)
  refine t3.comp (f' := fun m => if h.leaf x then m else m.connect spoil (h.rawCopy x).toGraph (h.copyOf x x)) ?_
  cases h.leaf x with
  | true => exact Mem.Tame.id _
  | false => exact Mem.connect_tame spoil hk _ _

theorem deal_tame {h : Heap T} (w : h.WF) (m : Mem V) {d : Deal V T} (hl : (⟨h, m⟩ : State V T).Legal n d)
    (ha : Away Y d) (hY : ∀ z, Y z → z < h.next ∧ h.leaf z = true) :
    Mem.Tame b Y (fun m => ((⟨h, m⟩ : State V T).deal spoil b n d).mem) m := by
  have hk : ∀ z, Y z → h.kids z = [] := fun z hz => w.skel.leaf z (hY z hz).2
  cases d with
  | make => exact absurd ha id
  | poke i v => exact absurd ha id
  | copy x => exact copy_tame spoil h x m (fun z hz => ⟨(hY z hz).1, hk z hz⟩)
  | call e =>
    cases e with
    | write x i v => exact write_tame m i v ha
    | heap e =>
      cases hq : quiet e with
      | true =>
        obtain ⟨L, hL, hm, -⟩ := exec_moves spoil (V := V) w e hl hq
        have : (fun m => ((⟨h, m⟩ : State V T).deal spoil b n (.call (.heap e))).mem) = runs spoil L := by
          funext m; exact hm m
        rw [this]
        refine runs_tame spoil L m (fun gr hgr z hz => ?_)
        refine List.eq_nil_iff_forall_not_mem.mpr (fun c hc => ?_)
        rcases (hL gr hgr).kids z c hc with hc | hc
        · rw [hk z hz] at hc; cases hc
        · cases e with
          | link p x i =>
            obtain ⟨h1, -, h2⟩ := hc
            have := (hY z hz).2
            rw [h1, h2] at this
            cases this
          | _ => exact hc
      | false =>
        cases e with
        | newParam k => exact newParam_tame m h.next k
        | newNode => exact Mem.Tame.id m
        | _ => cases hq

theorem deal_heap (h : Heap T) (m m' : Mem V) (d : Deal V T) :
    ((⟨h, m⟩ : State V T).deal spoil b n d).heap = ((⟨h, m'⟩ : State V T).deal spoil b n d).heap := by
  cases d with
  | make => rfl
  | poke i v => rfl
  | copy x => exact ((copy_heap spoil (⟨h, m⟩ : State V T) x).1).trans ((copy_heap spoil (⟨h, m'⟩ : State V T) x).1).symm
  | call e =>
    cases e with
    | write x i v => rfl
    | heap e =>
      exact ((exec_heap spoil (⟨h, m⟩ : State V T) e).1).trans ((exec_heap spoil (⟨h, m'⟩ : State V T) e).1).symm

/-! ### The invariant -/

/-- What holds in all states of a program that owns an array. -/
structure Lent (b : Nat) (s : State V T) (Y : List Id) : Prop where
  heap : s.heap.Reach
  linked : Linked s
  bounded : Bounded s.mem
  held : Mem.Held b (· ∈ Y) s.mem
  made : ∀ y ∈ Y, y < s.heap.next ∧ s.heap.leaf y = true

/-- A call leaves what there is a `Param` or not, and makes it a child only by linking it. -/
theorem exec_old {h : Heap T} (w : h.WF) {e : Heap.Ev T} (ha : h.Admissible e) {y : Id} (hy : y < h.next) :
    y < (h.exec e).1.next ∧ (h.exec e).1.leaf y = h.leaf y ∧
      ∀ p, y ∈ (h.exec e).1.kids p → y ∈ h.kids p ∨ links h e p y := by
  cases hq : quiet e with
  | true =>
    obtain ⟨L, -, -, h', h1, h2⟩ := exec_moves (fun _ _ => ()) w e ha hq
    have e1 := (exec_heap (fun _ _ => ()) (⟨h, Mem.empty fun _ _ => ()⟩ : State Unit T) e).1
    have : (h.exec e).1 = h' := e1.symm.trans (h1 _)
    rw [this]
    exact ⟨by rw [h2.next]; exact hy, by rw [h2.leaf], fun p hp => h2.kids p y hp⟩
  | false =>
    have key : ∀ leaf k ii, y < (h.newObj leaf k ii).next ∧ (h.newObj leaf k ii).leaf y = h.leaf y ∧
        ∀ p, y ∈ (h.newObj leaf k ii).kids p → y ∈ h.kids p := by
      intro leaf k ii
      refine ⟨Nat.lt_succ_of_lt hy, upd_ne _ _ (Nat.ne_of_lt hy), fun p hp => ?_⟩
      have hp : y ∈ upd h.kids h.next [] p := hp
      by_cases hpn : p = h.next
      · subst hpn; rw [upd_same] at hp; cases hp
      · rw [upd_ne _ _ hpn] at hp; exact hp
    cases e with
    | newParam k => exact ⟨(key _ _ _).1, (key _ _ _).2.1, fun p hp => .inl ((key _ _ _).2.2 p hp)⟩
    | newNode => exact ⟨(key _ _ _).1, (key _ _ _).2.1, fun p hp => .inl ((key _ _ _).2.2 p hp)⟩
    | _ => cases hq

theorem copy_old {s : State V T} (w : s.heap.WF) {x y : Id} (hx : x < s.heap.next) (hy : y < s.heap.next) :
    y < (s.copy spoil x).1.heap.next ∧ (s.copy spoil x).1.heap.leaf y = s.heap.leaf y ∧
      ∀ p, y ∈ (s.copy spoil x).1.heap.kids p → y ∈ s.heap.kids p := by
  have e := raw_graph spoil s x w.skel hx
  have e1 : (s.copy spoil x).1.heap.next = (s.heap.rawCopy x).next := congrArg Graph.next e
  have e2 : (s.copy spoil x).1.heap.leaf = (s.heap.rawCopy x).leaf := congrArg Graph.leaf e
  have e3 : (s.copy spoil x).1.heap.kids = (s.heap.rawCopy x).kids := congrArg Graph.kids e
  rw [e1, e2, e3]
  exact ⟨Nat.lt_of_lt_of_le hy (Nat.le_add_right ..), raw_leaf _ x hy, fun p => raw_mem _ x hy⟩

/-- One step keeps the old objects as they are. -/
theorem deal_old {s : State V T} (w : s.heap.WF) {d : Deal V T} (hl : s.Legal n d) {y : Id} (hy : y < s.heap.next) :
    y < (s.deal spoil b n d).heap.next ∧ (s.deal spoil b n d).heap.leaf y = s.heap.leaf y ∧
      ∀ p, y ∈ (s.deal spoil b n d).heap.kids p →
        y ∈ s.heap.kids p ∨ ∃ i, d = .call (.heap (.link p y i)) := by
  cases d with
  | poke i v => exact ⟨hy, rfl, fun p hp => .inl hp⟩
  | make =>
    have := exec_old (h := s.heap) w (e := .newParam n) trivial hy
    exact ⟨this.1, this.2.1, fun p hp => .inl ((this.2.2 p hp).resolve_right id)⟩
  | copy x =>
    have := copy_old spoil w hl.lt hy
    exact ⟨this.1, this.2.1, fun p hp => .inl (this.2.2 p hp)⟩
  | call e =>
    cases e with
    | write x i v => exact ⟨hy, rfl, fun p hp => .inl hp⟩
    | heap e =>
      have := exec_old (h := s.heap) w (e := e) hl hy
      rw [← (exec_heap spoil s e).1] at this
      refine ⟨this.1, this.2.1, fun p hp => (this.2.2 p hp).imp id (fun h => ?_)⟩
      cases e with
      | link q x i =>
        obtain ⟨h1, h2, -⟩ := h
        exact ⟨i, by rw [h1, h2]⟩
      | _ => exact absurd h id

theorem poke_held {s : State V T} {Y : Id → Prop} (h : Mem.Held b Y s.mem) (i : Nat) (v : V) :
    Mem.Held b Y (s.poke b i v).mem := ⟨h.lt, h.pos, h.hold⟩

theorem make_view (s : State V T) {z : Id} (hz : z ≠ s.heap.next) : (s.make b n).mem.view z = s.mem.view z := by
  show (upd s.mem.arr s.heap.next _ z).getD _ = _
  rw [upd_ne _ _ hz]; rfl

/-- A `Param` that is no longer on the array does not come back to it. -/
theorem deal_back {s : State V T} {Y : List Id} (h : Lent b s Y) {d : Deal V T} (hl : s.Legal n d) {z : Id}
    (hz : z < s.heap.next) (hb : ((s.deal spoil b n d).mem.view z).buf = b) : (s.mem.view z).buf = b := by
  have w := h.heap.inv.1
  by_cases ha : Away (· ∈ Y) d
  · exact (deal_tame spoil (b := b) (Y := (· ∈ Y)) w s.mem hl ha (fun z hz => h.made z hz) h.held).2.2.1 z hb
  · cases d with
    | make => rw [← make_view (n := n) s (Nat.ne_of_lt hz)]; exact hb
    | poke i v => exact hb
    | copy x => exact absurd trivial ha
    | call e =>
      cases e with
      | heap e => exact absurd trivial ha
      | write x i v => exact hb

theorem Lent.step {s : State V T} {Y : List Id} (h : Lent b s Y) {d : Deal V T} (hl : s.Legal n d) :
    Lent b (s.deal spoil b n d) (s.grows Y d) := by
  have w := h.heap.inv.1
  have hheap : (s.deal spoil b n d).heap.Reach := by
    cases d with
    | poke i v => exact h.heap
    | make => exact .step (e := .newParam n) h.heap trivial
    | copy x => show (s.copy spoil x).1.heap.Reach; rw [(copy_heap spoil s x).1]; exact .copy h.heap hl
    | call e =>
      cases e with
      | write x i v => exact h.heap
      | heap e => show (s.exec spoil (.heap e)).1.heap.Reach; rw [(exec_heap spoil s e).1]; exact .step h.heap hl
  have hlb : Linked (s.deal spoil b n d) ∧ Bounded (s.deal spoil b n d).mem := by
    cases d with
    | poke i v => exact ⟨⟨h.linked.lo, h.linked.fits, h.linked.calm⟩, h.bounded⟩
    | make =>
      have l' : Linked (⟨s.heap, { s.mem with next := b }⟩ : State V T) := ⟨h.linked.lo, h.linked.fits, h.linked.calm⟩
      refine ⟨newObj_linked (s := (⟨s.heap, { s.mem with next := b }⟩ : State V T)) w l' true n false
        (s.make b n).mem (fun y hy => upd_ne _ _ hy) (fun y hy => upd_ne _ _ hy)
        (fun _ => ⟨upd_same _ _ _, upd_same _ _ _⟩), ?_⟩
      intro y v hv
      have hv : upd s.mem.arr s.heap.next (some ⟨b, 0, n⟩) y = some v := hv
      show v.buf < s.mem.next
      by_cases hy : y = s.heap.next
      · subst hy; rw [upd_same] at hv; cases hv; exact h.held.lt
      · rw [upd_ne _ _ hy] at hv
        exact h.bounded y v hv
    | copy x => exact copy_linked spoil w h.linked h.bounded hl.lt
    | call e => exact exec_linked_bounded spoil w h.linked h.bounded hl
  have hmade : ∀ y ∈ s.grows Y d, y < (s.deal spoil b n d).heap.next ∧ (s.deal spoil b n d).heap.leaf y = true := by
    have old : ∀ y ∈ Y, y < (s.deal spoil b n d).heap.next ∧ (s.deal spoil b n d).heap.leaf y = true := by
      intro y hy
      obtain ⟨a1, a2⟩ := h.made y hy
      obtain ⟨b1, b2, -⟩ := deal_old spoil (b := b) w hl a1
      exact ⟨b1, b2.trans a2⟩
    intro y hy
    cases d with
    | make =>
      rcases List.mem_cons.mp hy with hy | hy
      · subst hy; exact ⟨Nat.lt_succ_self _, upd_same _ _ _⟩
      · exact old y hy
    | poke i v => exact old y hy
    | copy x => exact old y hy
    | call e => exact old y hy
  refine ⟨hheap, hlb.1, hlb.2, ?_, hmade⟩
  by_cases ha : Away (· ∈ Y) d
  · have := (deal_tame spoil (b := b) (Y := (· ∈ Y)) w s.mem hl ha (fun z hz => h.made z hz) h.held).1
    cases d with
    | make => exact absurd ha id
    | poke i v => exact absurd ha id
    | copy x => exact this
    | call e => exact this
  · cases d with
    | poke i v => exact poke_held h.held i v
    | copy x => exact absurd trivial ha
    | call e =>
      cases e with
      | heap e => exact absurd trivial ha
      | write x i v => exact ⟨h.held.lt, h.held.pos, h.held.hold⟩
    | make =>
      refine ⟨h.held.lt, h.held.pos, fun z hz => ?_⟩
      by_cases hzn : z = s.heap.next
      · subst hzn; exact ⟨List.mem_cons_self .., upd_same _ _ _⟩
      · have hz : ((s.make b n).mem.view z).buf = b := hz
        rw [make_view s hzn] at hz
        refine ⟨List.mem_cons_of_mem _ (h.held.hold z hz).1, ?_⟩
        show upd s.mem.owns s.heap.next false z = false
        rw [upd_ne _ _ hzn]; exact (h.held.hold z hz).2

theorem Owned.lent {s : State V T} {Y : List Id} (h : Owned spoil b n s Y) : Lent b s Y := by
  induction h with
  | @buy s vs d hr hb hn =>
    refine ⟨hr.heap, ⟨hr.linked.lo, hr.linked.fits, hr.linked.calm⟩,
      fun y v hv => Nat.lt_succ_of_lt (hr.bounded y v hv), ⟨?_, ?_, fun z hz => ?_⟩, fun y hy => by cases hy⟩
    · rw [hb]; exact Nat.lt_succ_self _
    · rw [hb]; exact Nat.ne_of_gt (hr.mem_pos spoil)
    · exfalso
      have hz : (s.mem.view z).buf = b := hz
      unfold Mem.view at hz
      cases ha : s.mem.arr z with
      | none => rw [ha] at hz; have := hr.mem_pos spoil; simp only [Option.getD_none] at hz; omega
      | some v =>
        rw [ha] at hz
        have := hr.bounded z v ha
        simp only [Option.getD_some] at hz; omega
  | step _ hl ih => exact ih.step spoil hl

/-- The list of `Param`s made of the array after a program. -/
def growth (b n : Nat) : State V T → List Id → List (Deal V T) → List Id
  | _, Y, [] => Y
  | s, Y, d :: ds => growth b n (s.deal spoil b n d) (s.grows Y d) ds

theorem Owned.run {ds : List (Deal V T)} : ∀ {s : State V T} {Y : List Id}, Owned spoil b n s Y →
    s.Legals spoil b n ds → Owned spoil b n (s.deals spoil b n ds) (growth spoil b n s Y ds) := by
  induction ds with
  | nil => exact fun h _ => h
  | cons d ds ih => exact fun h hl => ih (.step h hl.1) hl.2

theorem grows_mem (s : State V T) {Y : List Id} (d : Deal V T) {y : Id} (hy : y ∈ Y) : y ∈ s.grows Y d := by
  cases d with
  | make => exact List.mem_cons_of_mem _ hy
  | _ => exact hy

theorem growth_mem {ds : List (Deal V T)} : ∀ {s : State V T} {Y : List Id} {y : Id}, y ∈ Y →
    y ∈ growth spoil b n s Y ds := by
  induction ds with
  | nil => exact fun h => h
  | cons d ds ih => exact fun h => ih (grows_mem _ d h)

/-- No longer on the array, and never again. -/
theorem deals_back {ds : List (Deal V T)} : ∀ {s : State V T} {Y : List Id} {y : Id}, Owned spoil b n s Y → y ∈ Y →
    s.Legals spoil b n ds → (s.mem.view y).buf ≠ b → ((s.deals spoil b n ds).mem.view y).buf ≠ b := by
  induction ds with
  | nil => exact fun _ _ _ h => h
  | cons d ds ih =>
    intro s Y y h hy hl hb
    have hle := h.lent
    exact ih (.step h hl.1) (grows_mem s d hy) hl.2
      (fun e => hb (deal_back spoil hle hl.1 (hle.made y hy).1 e))

/-- A `Param` with elements in an initialised model is not on the array. -/
theorem Lent.parted {s : State V T} {Y : List Id} (h : Lent b s Y) {y : Id} (hy : y ∈ Y) (hs : 0 < s.heap.size y)
    (hp : s.heap.parent y ≠ none) (hd : Done s.heap (s.heap.toGraph.highest y)) : (s.mem.view y).buf ≠ b := by
  have w := h.heap.inv.1
  obtain ⟨r1, r2⟩ := w.skel.highest_spec y
  generalize s.heap.toGraph.highest y = r at r1 r2 hd
  have hne : r ≠ y := fun e => hp (e ▸ r1)
  have hr : s.heap.leaf r = false := by
    cases hl : s.heap.leaf r with
    | false => rfl
    | true => exact absurd (anc_leaf w.skel hl r2) (Ne.symm hne)
  obtain ⟨k, hk⟩ := w.skel.exists_at r2
  have hrs : 0 < s.heap.size r := by
    have : k + s.heap.size y ≤ s.heap.size r := hk.window w.skel w.sized
    omega
  have hrn : r < s.heap.next := by
    obtain ⟨e, A, B, hk, -⟩ := Hier.Graph.Ins.child_above w.skel r2 hne
    exact (w.skel.alloc _ _ (w.skel.parent_of hk)).2
  obtain ⟨b0, o, hc⟩ := h.linked.calm r hrn hd
  have e1 := (hc y k hk hs).1
  have e2 := (hc r 0 .refl hrs).1
  have hb0 : (s.mem.view r).buf ≠ b := h.held.off (fun hm => by
    have hm : r ∈ Y := hm
    rw [(h.made r hm).2] at hr; cases hr)
  unfold Mem.view at hb0 ⊢
  rw [e2] at hb0
  rw [e1]
  exact hb0

end State

end Paramz.Memory

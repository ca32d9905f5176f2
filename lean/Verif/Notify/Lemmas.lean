import Verif.Notify.Spec
import Verif.Hier.TravProps
import Verif.Hier.ConProps

/-!
# Lemmas about notification rounds and registrations
-/

set_option linter.unusedSectionVars false

namespace Paramz.Notify

open Hier (Heap Id upd upd_same upd_ne)
open Hier.Graph (Anc Skel anc_iff_of_parent)
open Hier.Heap (WF)

variable {T : Type} [DecidableEq T]

/-! ### Registrations -/

/-- Registrations made by the library itself. -/
def isStd (r : Reg) : Bool := match r.callee with
  | .user _ => false
  | _ => true

/-- Lists in decreasing order of priority. -/
def Sorted (l : List Reg) : Prop := l.Pairwise (fun a b => b.prio ≤ a.prio)

theorem mem_addReg {r e : Reg} : ∀ {l : List Reg}, e ∈ addReg r l ↔ e = r ∨ e ∈ l
  | [] => by simp [addReg]
  | a :: l => by
    unfold addReg
    split
    · simp
    · rw [List.mem_cons, mem_addReg, List.mem_cons]; tauto

theorem Sorted.addReg {r : Reg} : ∀ {l : List Reg}, Sorted l → Sorted (addReg r l)
  | [], _ => by simp [Notify.addReg, Sorted]
  | a :: l, h => by
    unfold Sorted at h
    rw [List.pairwise_cons] at h
    unfold Notify.addReg
    split
    · rename_i hlt
      refine List.pairwise_cons.mpr ⟨fun e he => ?_, List.pairwise_cons.mpr h⟩
      rcases List.mem_cons.mp he with rfl | he
      · exact le_of_lt hlt
      · exact (h.1 e he).trans (le_of_lt hlt)
    · rename_i hlt
      refine List.pairwise_cons.mpr ⟨fun e he => ?_, Sorted.addReg h.2⟩
      rcases mem_addReg.mp he with rfl | he
      · exact not_lt.mp hlt
      · exact h.1 e he

theorem Sorted.removeReg {c : Callee} {l : List Reg} (h : Sorted l) : Sorted (removeReg c l) :=
  List.Pairwise.filter _ h

theorem filter_addReg_user {u : Nat} {p : Prio} : ∀ {l : List Reg},
    (addReg ⟨p, .user u⟩ l).filter isStd = l.filter isStd
  | [] => by simp [addReg, isStd]
  | a :: l => by
    unfold addReg
    split
    · rw [List.filter_cons_of_neg (by simp [isStd])]
    · rw [List.filter_cons, List.filter_cons, filter_addReg_user]

/-- The registration of a parent goes to the end. -/
theorem filter_addReg_pass {p : Id} : ∀ {l : List Reg},
    (addReg ⟨⊥, .pass p⟩ l).filter isStd = l.filter isStd ++ [⟨⊥, .pass p⟩]
  | [] => by simp [addReg, isStd]
  | a :: l => by
    unfold addReg
    rw [if_neg not_lt_bot, List.filter_cons, List.filter_cons, filter_addReg_pass]
    split <;> simp

theorem filter_removeReg {c : Callee} {l : List Reg} :
    (removeReg c l).filter isStd = (l.filter isStd).filter (fun e => decide (e.callee ≠ c)) := by
  unfold removeReg
  rw [List.filter_filter, List.filter_filter]
  congr 1
  funext e
  exact Bool.and_comm _ _

/-- The own registrations every object should have. -/
def std (h : Heap T) (x : Id) : List Reg :=
  (if h.leaf x then [] else [⟨((-100 : Int) : Prio), .changed⟩]) ++
    (match h.parent x with
      | none => []
      | some p => [⟨⊥, .pass p⟩])

/-- The registrations made by the library are those the hierarchy calls for. -/
structure Wired (s : State T) : Prop where
  reach : s.heap.Reach
  sorted : ∀ x, x < s.heap.next → Sorted (s.obs x)
  regs : ∀ x, x < s.heap.next → (s.obs x).filter isStd = std s.heap x

/-- In addition no call has raised. -/
structure Inv (s : State T) : Prop extends Wired s where
  quiet : s.heap.Quiet

instance {s : State T} : CoeOut (Inv s) (Wired s) := ⟨Inv.toWired⟩

theorem Wired.wf {s : State T} (i : Wired s) : WF s.heap := i.reach.wf

theorem Wired.skel {s : State T} (i : Wired s) : Skel s.heap.toGraph := i.wf.skel

/-! ### Rounds -/

theorem changedOf_append (a b : List Call) : changedOf (a ++ b) = changedOf a ++ changedOf b := by
  unfold changedOf; rw [List.filterMap_append]

theorem changedOf_flatMap {α : Type} (f : α → List Call) : ∀ l : List α,
    changedOf (l.flatMap f) = l.flatMap (fun a => changedOf (f a))
  | [] => rfl
  | a :: l => by
    rw [List.flatMap_cons, List.flatMap_cons, changedOf_append, changedOf_flatMap f l]

/-- What is done for one registration. -/
def serve (n : Nat) (s : State T) (x : Id) (r : Reg) : List Call := match r.callee with
  | .changed => [.changed x]
  | .pass p => State.notifyF n s p none
  | .user u => [.user u]

theorem notifyF_succ (n : Nat) (s : State T) (x : Id) (minp : Option Prio) :
    State.notifyF (n + 1) s x minp =
      if s.on x then (served minp (s.obs x)).flatMap (serve n s x) else [] := rfl

theorem serve_std (n : Nat) (s : State T) (x : Id) : ∀ l : List Reg,
    l.flatMap (fun r => changedOf (serve n s x r)) =
      (l.filter isStd).flatMap (fun r => changedOf (serve n s x r))
  | [] => rfl
  | r :: l => by
    rw [List.flatMap_cons, serve_std n s x l, List.filter_cons]
    cases hr : isStd r with
    | true => rw [if_pos rfl, List.flatMap_cons]
    | false =>
      rw [if_neg (by simp)]
      have : changedOf (serve n s x r) = [] := by
        unfold isStd at hr
        unfold serve
        cases hc : r.callee with
        | user u => rfl
        | _ => rw [hc] at hr; cases hr
      rw [this, List.nil_append]

theorem takeWhile_sorted : ∀ {l : List Reg}, Sorted l →
    l.takeWhile (fun e => decide ((⊥ : Prio) < e.prio)) = l.filter (fun e => decide ((⊥ : Prio) < e.prio))
  | [], _ => rfl
  | a :: l, h => by
    unfold Sorted at h
    rw [List.pairwise_cons] at h
    by_cases ha : (⊥ : Prio) < a.prio
    · rw [List.takeWhile_cons_of_pos (by simpa using ha), List.filter_cons_of_pos (by simpa using ha),
        takeWhile_sorted h.2]
    · rw [List.takeWhile_cons_of_neg (by simpa using ha), List.filter_cons_of_neg (by simpa using ha)]
      rw [eq_comm, List.filter_eq_nil_iff]
      intro e he
      have h1 : a.prio = ⊥ := not_bot_lt_iff.mp ha
      have h2 := h.1 e he
      rw [h1, le_bot_iff] at h2
      simp [h2]

theorem served_std {s : State T} (i : Wired s) {x : Id} (hx : x < s.heap.next) :
    (served none (s.obs x)).filter isStd = std s.heap x ∧
    (served (some ⊥) (s.obs x)).filter isStd =
      if s.heap.leaf x then [] else [⟨((-100 : Int) : Prio), .changed⟩] := by
  refine ⟨i.regs x hx, ?_⟩
  unfold served
  simp only []
  rw [takeWhile_sorted (i.sorted x hx), List.filter_filter]
  have : (s.obs x).filter (fun e => isStd e && decide ((⊥ : Prio) < e.prio)) =
      ((s.obs x).filter isStd).filter (fun e => decide ((⊥ : Prio) < e.prio)) := by
    rw [List.filter_filter]
    congr 1
    funext e
    exact Bool.and_comm _ _
  rw [this, i.regs x hx]
  unfold std
  have h100 : (⊥ : Prio) < ((-100 : Int) : Prio) := WithBot.bot_lt_coe _
  cases s.heap.leaf x <;> cases s.heap.parent x <;> simp [h100]

/-- Objects above, as far as updates are on. -/
theorem notifyF_changed {s : State T} (i : Wired s) : ∀ (n : Nat) (x : Id) (L : List Id), x < s.heap.next →
    Above s.heap.toGraph x L → L.length < n → s.on x = true →
    changedOf (State.notifyF n s x none) =
      (if s.heap.leaf x then [] else [x]) ++ L.takeWhile s.on
  | 0, _, _, _, _, h, _ => absurd h (Nat.not_lt_zero _)
  | n + 1, x, L, hx, ha, hl, hon => by
    rw [notifyF_succ, if_pos hon, changedOf_flatMap, serve_std, (served_std i hx).1]
    unfold std
    rw [List.flatMap_append]
    have h1 : (if s.heap.leaf x then [] else [(⟨((-100 : Int) : Prio), .changed⟩ : Reg)]).flatMap
        (fun r => changedOf (serve n s x r)) = if s.heap.leaf x then [] else [x] := by
      cases s.heap.leaf x <;> rfl
    rw [h1]
    congr 1
    cases ha with
    | root hr => rw [show s.heap.parent x = none from hr]; rfl
    | @up _ p l hp ha =>
      rw [show s.heap.parent x = some p from hp]
      simp only [List.flatMap_cons, List.flatMap_nil, List.append_nil]
      have hplt := (i.skel.alloc _ _ hp).2
      have hleaf : s.heap.leaf p = false := i.skel.kids_not_leaf hp
      rw [List.takeWhile_cons]
      cases honp : s.on p with
      | true =>
        have := notifyF_changed i n p l hplt ha (by simp only [List.length_cons] at hl; omega) honp
        rw [hleaf] at this
        exact this
      | false =>
        show changedOf (State.notifyF n s p none) = _
        cases n with
        | zero => rfl
        | succ n => rw [notifyF_succ, honp]; rfl

/-- The objects above exist and are fewer than the fuel. -/
theorem Above.exists_short {g : Hier.Graph} (s : Skel g) (x : Id) : ∃ L, Above g x L ∧ L.length < g.fuel := by
  obtain ⟨d, hd, hb⟩ := s.rank
  have : ∀ k x, d x = k → ∃ L, Above g x L ∧ L.length ≤ k := by
    intro k
    induction k using Nat.strong_induction_on with
    | _ k ih =>
      intro x hk
      cases hp : g.parent x with
      | none => exact ⟨[], .root hp, Nat.zero_le _⟩
      | some p =>
        have hlt := hd _ _ hp
        obtain ⟨L, hL, hlen⟩ := ih (d p) (by omega) p rfl
        exact ⟨p :: L, .up hp hL, by simp only [List.length_cons]; omega⟩
  obtain ⟨L, hL, hlen⟩ := this (d x) x rfl
  exact ⟨L, hL, by have := hb x; unfold Hier.Graph.fuel; omega⟩

theorem Above.unique {g : Hier.Graph} {x : Id} {L L' : List Id} (h : Above g x L) :
    Above g x L' → L = L' := by
  induction h generalizing L' with
  | root hr => intro h'; cases h' with
    | root _ => rfl
    | up hp _ => rw [hr] at hp; cases hp
  | up hp _ ih => intro h'; cases h' with
    | root hr => rw [hr] at hp; cases hp
    | up hp' h'' =>
      rw [hp] at hp'
      cases hp'
      rw [ih h'']

theorem Above.length_lt {g : Hier.Graph} (s : Skel g) {x : Id} {L : List Id} (h : Above g x L) :
    L.length < g.fuel := by
  obtain ⟨L', h', hl⟩ := Above.exists_short s x
  rw [h.unique h']; exact hl

theorem Above.mem {g : Hier.Graph} (s : Skel g) {x : Id} {L : List Id} (h : Above g x L) :
    ∀ y, y ∈ L ↔ Anc g y x ∧ y ≠ x := by
  induction h with
  | @root x hr =>
    intro y
    simp only [List.not_mem_nil, false_iff, not_and, not_not]
    intro ha
    exact (Hier.Graph.anc_root hr).mp ha
  | @up x p l hp _ ih =>
    intro y
    rw [List.mem_cons, ih y]
    constructor
    · rintro (rfl | ⟨h1, -⟩)
      · exact ⟨.of_parent hp, by rintro rfl; exact s.not_anc_parent hp .refl⟩
      · exact ⟨h1.trans (.of_parent hp), by rintro rfl; exact s.not_anc_parent hp h1⟩
    · rintro ⟨h1, h2⟩
      rcases (anc_iff_of_parent hp).mp h1 with h3 | h3
      · exact absurd h3 h2
      · by_cases hyp : y = p
        · exact .inl hyp
        · exact .inr ⟨h3, hyp⟩

theorem Above.nodup {g : Hier.Graph} (s : Skel g) {x : Id} {L : List Id} (h : Above g x L) : L.Nodup := by
  induction h with
  | root _ => exact List.nodup_nil
  | @up x p l hp h' ih =>
    rw [List.nodup_cons]
    exact ⟨fun hm => ((h'.mem s p).mp hm).2 rfl, ih⟩

theorem notify_changed {s : State T} (i : Wired s) {x : Id} {L : List Id} (hx : x < s.heap.next)
    (ha : Above s.heap.toGraph x L) (hon : s.on x = true) :
    changedOf (s.notify x none) = (if s.heap.leaf x then [] else [x]) ++ L.takeWhile s.on :=
  notifyF_changed i _ x L hx ha (ha.length_lt i.skel) hon

theorem notify_self {s : State T} (i : Wired s) {x : Id} (hx : x < s.heap.next) :
    changedOf (s.notify x (some ⊥)) = if !s.heap.leaf x && s.on x then [x] else [] := by
  unfold State.notify Hier.Graph.fuel
  rw [notifyF_succ]
  cases hon : s.on x with
  | false => simp [changedOf]
  | true =>
    rw [if_pos rfl, changedOf_flatMap, serve_std, (served_std i hx).2]
    cases s.heap.leaf x <;> rfl

/-- A call of `parameters_changed` is only made on objects whose updates are on. -/
theorem notifyF_on (s : State T) : ∀ (n : Nat) (x : Id) (minp : Option Prio) (y : Id),
    y ∈ changedOf (State.notifyF n s x minp) → s.on y = true
  | 0, _, _, _, h => by simp [State.notifyF, changedOf] at h
  | n + 1, x, minp, y, h => by
    rw [notifyF_succ] at h
    cases hon : s.on x with
    | false => rw [hon] at h; simp [changedOf] at h
    | true =>
      rw [hon, if_pos rfl, changedOf_flatMap, List.mem_flatMap] at h
      obtain ⟨r, -, hr⟩ := h
      unfold serve at hr
      cases hc : r.callee with
      | changed => simp [hc, changedOf] at hr; rw [hr]; exact hon
      | pass p => rw [hc] at hr; exact notifyF_on s n p none y hr
      | user u => simp [hc, changedOf] at hr

theorem triggerF_on (s : State T) : ∀ (n : Nat) (x : Id) (tp : Bool) (y : Id),
    y ∈ changedOf (State.triggerF n s x tp) → s.on y = true
  | 0, _, _, _, h => by simp [State.triggerF, changedOf] at h
  | n + 1, x, tp, y, h => by
    unfold State.triggerF at h
    rw [changedOf_append, changedOf_flatMap, List.mem_append, List.mem_flatMap] at h
    rcases h with ⟨c, -, hc⟩ | h
    · exact triggerF_on s n c false y hc
    · exact notifyF_on s _ x _ y h

theorem triggerUpdate_on (s : State T) {x : Id} {tp : Bool} {y : Id}
    (h : y ∈ changedOf (s.triggerUpdate x tp)) : s.on y = true := by
  unfold State.triggerUpdate at h
  split at h
  · simp [changedOf] at h
  · exact triggerF_on s _ x tp y h

/-! ### `_trigger_params_changed` -/

/-- The objects updated below `x`, in order. -/
def postF : Nat → Hier.Graph → (Id → Bool) → (Id → Bool) → Id → List Id
  | 0, _, _, _, _ => []
  | n + 1, g, fx, on, x =>
    ((g.kids x).filter (fun c => !fx c)).flatMap (fun c => postF n g fx on c) ++
      (if !g.leaf x && on x then [x] else [])

theorem triggerF_false {s : State T} (i : Wired s) : ∀ (n : Nat) (x : Id), x < s.heap.next →
    changedOf (State.triggerF n s x false) = postF n s.heap.toGraph s.heap.isFixed s.on x
  | 0, _, _ => rfl
  | n + 1, x, hx => by
    unfold State.triggerF postF
    rw [changedOf_append, changedOf_flatMap]
    congr 1
    · apply List.flatMap_congr
      intro c hc
      exact triggerF_false i n c (i.skel.alloc _ _ ((i.skel.mem_iff _ _).mp
        (List.mem_of_mem_filter hc))).1
    · exact notify_self i hx

section post
variable {g : Hier.Graph} {fx on : Id → Bool}

theorem postF_anc (s : Skel g) : ∀ n x y, y ∈ postF n g fx on x → Anc g x y
  | 0, _, _, h => by simp [postF] at h
  | n + 1, x, y, h => by
    unfold postF at h
    rw [List.mem_append, List.mem_flatMap] at h
    rcases h with ⟨c, hc, hy⟩ | h
    · exact (Anc.of_parent ((s.mem_iff _ _).mp (List.mem_of_mem_filter hc))).trans
        (postF_anc s n c y hy)
    · split at h
      · rw [List.mem_singleton] at h; subst h; exact .refl
      · simp at h

theorem kids_apart (s : Skel g) {x a b : Id} (ha : a ∈ g.kids x) (hb : b ∈ g.kids x) (hne : a ≠ b)
    {y : Id} (h1 : Anc g a y) (h2 : Anc g b y) : False := by
  have hpa := (s.mem_iff _ _).mp ha
  have hpb := (s.mem_iff _ _).mp hb
  rcases h1.total h2 with h3 | h3
  · rcases (anc_iff_of_parent hpb).mp h3 with h4 | h4
    · exact hne h4
    · exact s.not_anc_parent hpa h4
  · rcases (anc_iff_of_parent hpa).mp h3 with h4 | h4
    · exact hne h4.symm
    · exact s.not_anc_parent hpb h4

theorem nodup_postF (s : Skel g) : ∀ n x, (postF n g fx on x).Nodup
  | 0, _ => List.nodup_nil
  | n + 1, x => by
    unfold postF
    rw [List.nodup_append]
    refine ⟨?_, by split <;> simp, ?_⟩
    · rw [List.nodup_flatMap]
      refine ⟨fun c _ => nodup_postF s n c, ?_⟩
      refine ((s.nodup x).filter _).imp_of_mem ?_
      intro a b ha hb hne y hya hyb
      exact kids_apart s (List.mem_of_mem_filter ha) (List.mem_of_mem_filter hb) hne
        (postF_anc s n a y hya) (postF_anc s n b y hyb)
    · intro a ha b hb
      rw [List.mem_flatMap] at ha
      obtain ⟨c, hc, ha⟩ := ha
      split at hb
      · rw [List.mem_singleton] at hb
        subst hb
        rintro rfl
        exact s.not_anc_parent ((s.mem_iff _ _).mp (List.mem_of_mem_filter hc)) (postF_anc s n c a ha)
      · simp at hb

theorem postF_order (s : Skel g) : ∀ n x,
    (postF n g fx on x).Pairwise (fun a b => ¬ (Anc g a b ∧ a ≠ b))
  | 0, _ => List.Pairwise.nil
  | n + 1, x => by
    unfold postF
    rw [List.pairwise_append]
    refine ⟨?_, by split <;> simp, ?_⟩
    · rw [List.pairwise_flatMap]
      refine ⟨fun c _ => postF_order s n c, ?_⟩
      refine ((s.nodup x).filter _).imp_of_mem ?_
      rintro a b ha hb hne y hya z hzb ⟨h1, -⟩
      exact kids_apart s (List.mem_of_mem_filter ha) (List.mem_of_mem_filter hb) hne
        ((postF_anc s n a y hya).trans h1) (postF_anc s n b z hzb)
    · rintro a ha b hb ⟨h1, h2⟩
      split at hb
      · rw [List.mem_singleton] at hb
        subst hb
        rw [List.mem_flatMap] at ha
        obtain ⟨c, hc, ha⟩ := ha
        exact s.not_anc_parent ((s.mem_iff _ _).mp (List.mem_of_mem_filter hc))
          ((postF_anc s n c a ha).trans h1)
      · simp at hb

end post

theorem Awake.anc {h : Heap T} {x y : Id} (a : Awake h x y) : Anc h.toGraph x y := by
  induction a with
  | refl => exact .refl
  | step _ hp _ ih => exact ih.trans (.of_parent hp)

theorem Awake.cons {h : Heap T} {x c y : Id} (hp : h.parent c = some x) (hf : h.isFixed c = false)
    (a : Awake h c y) : Awake h x y := by
  induction a with
  | refl => exact .step .refl hp hf
  | step _ hp' hf' ih => exact .step ih hp' hf'

theorem Awake.cases_child {h : Heap T} {x y : Id} (a : Awake h x y) :
    y = x ∨ ∃ c, h.parent c = some x ∧ h.isFixed c = false ∧ Awake h c y := by
  induction a with
  | refl => exact .inl rfl
  | @step p c a hp hf ih =>
    rcases ih with rfl | ⟨c', h1, h2, h3⟩
    · exact .inr ⟨c, hp, hf, .refl⟩
    · exact .inr ⟨c', h1, h2, .step h3 hp hf⟩

theorem mem_postF {h : Heap T} (s : Skel h.toGraph) {on : Id → Bool} {d : Id → Nat}
    (hd : ∀ c p, h.parent c = some p → d p < d c) (hb : ∀ x, d x ≤ h.next) :
    ∀ (N : Nat) (x : Id), h.next < N + d x → ∀ y,
    (y ∈ postF N h.toGraph h.isFixed on x ↔ h.leaf y = false ∧ on y = true ∧ Awake h x y)
  | 0, x, hN, _ => absurd (hb x) (by omega)
  | N + 1, x, hN, y => by
    unfold postF
    rw [List.mem_append, List.mem_flatMap]
    constructor
    · rintro (⟨c, hc, hy⟩ | hy)
      · rw [List.mem_filter] at hc
        have hp := (s.mem_iff _ _).mp hc.1
        have := hd _ _ hp
        obtain ⟨h1, h2, h3⟩ := (mem_postF s hd hb N c (by omega) y).mp hy
        exact ⟨h1, h2, .cons hp (by simpa using hc.2) h3⟩
      · split at hy
        · rename_i hcond
          rw [List.mem_singleton] at hy
          subst hy
          rw [Bool.and_eq_true] at hcond
          exact ⟨by simpa using hcond.1, hcond.2, .refl⟩
        · simp at hy
    · rintro ⟨h1, h2, h3⟩
      rcases h3.cases_child with rfl | ⟨c, hp, hf, hc⟩
      · refine .inr ?_
        have h1 : h.toGraph.leaf y = false := h1
        rw [h1, h2]; simp
      · have := hd _ _ hp
        refine .inl ⟨c, ?_, (mem_postF s hd hb N c (by omega) y).mpr ⟨h1, h2, hc⟩⟩
        rw [List.mem_filter]
        exact ⟨(s.mem_iff _ _).mpr hp, by simp [hf]⟩

/-- The calls of `_trigger_params_changed`. -/
theorem triggerF_spec {s : State T} (i : Wired s) {x : Id} {L : List Id} (hx : x < s.heap.next)
    (ha : Above s.heap.toGraph x L) (hon : s.on x = true) (tp : Bool) :
    changedOf (State.triggerF s.heap.toGraph.fuel s x tp) =
      postF s.heap.toGraph.fuel s.heap.toGraph s.heap.isFixed s.on x ++
        (if tp then L.takeWhile s.on else []) := by
  cases tp with
  | false => rw [triggerF_false i _ x hx]; simp
  | true =>
    unfold Hier.Graph.fuel State.triggerF postF
    rw [changedOf_append, changedOf_flatMap, List.append_assoc]
    congr 1
    · apply List.flatMap_congr
      intro c hc
      exact triggerF_false i _ c (i.skel.alloc _ _ ((i.skel.mem_iff _ _).mp
        (List.mem_of_mem_filter hc))).1
    · rw [if_pos rfl, notify_changed i hx ha hon, if_pos rfl, hon]
      cases s.heap.toGraph.leaf x <;> rfl

end Paramz.Notify

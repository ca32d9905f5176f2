import Verif.Notify.Cached

/-!
# Cached methods used inside `parameters_changed`

C69: when `parameters_changed` of an object runs, the cached methods of the object and of the objects below it
have already been told about the change.
-/

set_option linter.unusedSectionVars false

namespace Paramz.Notify

open Hier (Heap Id upd upd_same upd_ne)
open Hier.Graph (Anc Skel)

variable {T : Type} [DecidableEq T] {V R : Type}

/-- In the calls `l`, every `parameters_changed` of `y` comes after a call of `u`. -/
def Before (u y : Nat) (l : List Call) : Prop := ∀ pre post, l = pre ++ .changed y :: post → .user u ∈ pre

section
variable {u y : Nat}

theorem Before.of_not_mem {l : List Call} (h : .changed y ∉ l) : Before u y l := by
  rintro pre post rfl
  exact absurd (by simp) h

theorem Before.told {l l' : List Call} (h : Before u y l) (hm : .user u ∈ l) : Before u y (l ++ l') := by
  intro pre post e
  rcases List.append_eq_append_iff.mp e with ⟨as, rfl, -⟩ | ⟨bs, rfl, hb⟩
  · exact List.mem_append_left _ hm
  · cases bs with
    | nil => simpa using hm
    | cons b bs =>
      rw [List.cons_append] at hb
      injection hb with hb1 hb2
      subst hb1
      exact h pre bs rfl

theorem Before.append {l l' : List Call} (h : Before u y l) (h' : Before u y l') : Before u y (l ++ l') := by
  intro pre post e
  rcases List.append_eq_append_iff.mp e with ⟨as, rfl, ha⟩ | ⟨bs, rfl, hb⟩
  · exact List.mem_append_right _ (h' as post ha)
  · cases bs with
    | nil =>
      rw [List.nil_append] at hb
      have := h' [] post hb.symm
      cases this
    | cons b bs =>
      rw [List.cons_append] at hb
      injection hb with hb1 hb2
      subst hb1
      exact h pre bs rfl

theorem Before.flatMap {α : Type} {f : α → List Call} : ∀ {l : List α}, (∀ a ∈ l, Before u y (f a)) →
    Before u y (l.flatMap f)
  | [], _ => .of_not_mem (by simp)
  | a :: l, h => by
    rw [List.flatMap_cons]
    exact .append (h a List.mem_cons_self) (Before.flatMap (fun b hb => h b (List.mem_cons_of_mem _ hb)))

end

/-! ### Registrations -/

theorem changed_prio {s : State T} (i : Inv s) {x : Id} (hx : x < s.heap.next) {r : Reg} (hr : r ∈ s.obs x)
    (hc : r.callee = .changed) : r.prio = ((-100 : Int) : Prio) := by
  have h1 : r ∈ (s.obs x).filter isStd := List.mem_filter.mpr ⟨hr, by unfold isStd; rw [hc]⟩
  rw [i.regs x hx] at h1
  unfold std at h1
  rw [List.mem_append] at h1
  rcases h1 with h1 | h1
  · split at h1
    · cases h1
    · rw [List.mem_singleton] at h1; rw [h1]
  · split at h1
    · cases h1
    · rw [List.mem_singleton] at h1; rw [h1] at hc; cases hc

theorem pass_reg {s : State T} (i : Inv s) {x q : Id} (hx : x < s.heap.next) {r : Reg} (hr : r ∈ s.obs x)
    (hc : r.callee = .pass q) : r.prio = ⊥ ∧ s.heap.parent x = some q := by
  have h1 : r ∈ (s.obs x).filter isStd := List.mem_filter.mpr ⟨hr, by unfold isStd; rw [hc]⟩
  rw [i.regs x hx] at h1
  unfold std at h1
  rw [List.mem_append] at h1
  rcases h1 with h1 | h1
  · split at h1
    · cases h1
    · rw [List.mem_singleton] at h1; rw [h1] at hc; cases hc
  · cases hp : s.heap.parent x with
    | none => rw [hp] at h1; cases h1
    | some q' =>
      rw [hp] at h1
      rw [List.mem_singleton] at h1; rw [h1] at hc; cases hc; rw [h1]; exact ⟨rfl, rfl⟩

theorem served_sub {l : List Reg} {minp : Option Prio} {r : Reg} (h : r ∈ served minp l) : r ∈ l := by
  unfold served at h
  split at h
  · exact h
  · exact (List.takeWhile_sublist _).subset h

theorem served_sorted {l : List Reg} (h : Sorted l) (minp : Option Prio) : Sorted (served minp l) := by
  unfold served
  split
  · exact h
  · exact h.sublist (List.takeWhile_sublist _)

theorem served_mem {l : List Reg} (h : Sorted l) {minp : Option Prio} (hm : minp = none ∨ minp = some ⊥)
    {r : Reg} (hr : r ∈ l) (hp : ⊥ < r.prio) : r ∈ served minp l := by
  rcases hm with rfl | rfl
  · exact hr
  · unfold served
    simp only []
    rw [takeWhile_sorted h, List.mem_filter]
    exact ⟨hr, by simpa using hp⟩

/-- The round at the object with the registration: entries of higher priority come first. -/
theorem round_before {s : State T} {n : Nat} {x y u : Nat} {p : Prio} {l : List Reg} (hs : Sorted l)
    (hr : (⟨p, .user u⟩ : Reg) ∈ l)
    (hh : ∀ r ∈ l, p ≤ r.prio → .changed y ∉ serve n s x r) : Before u y (l.flatMap (serve n s x)) := by
  obtain ⟨A, B, rfl⟩ := List.append_of_mem hr
  rw [List.flatMap_append, List.flatMap_cons, ← List.append_assoc]
  refine .told (.append (.flatMap fun r hrA => .of_not_mem ?_) (.of_not_mem (by simp [serve])))
    (by simp [serve])
  refine hh r (List.mem_append_left _ hrA) ?_
  have := List.pairwise_append.mp hs
  exact this.2.2 r hrA _ List.mem_cons_self

/-! ### The cached methods of the object itself -/

section own
variable {s : State T} {y u : Nat} {p : Prio}

theorem notifyF_before (i : Inv s) (hreg : (⟨p, .user u⟩ : Reg) ∈ s.obs y) (hp : ((-100 : Int) : Prio) < p) :
    ∀ (n : Nat) (x : Id) (minp : Option Prio), x < s.heap.next → (minp = none ∨ minp = some ⊥) →
      Before u y (State.notifyF n s x minp)
  | 0, _, _, _, _ => .of_not_mem (by simp [State.notifyF])
  | n + 1, x, minp, hx, hm => by
    rw [notifyF_succ]
    split
    · by_cases hxy : x = y
      · subst hxy
        refine round_before (served_sorted (i.sorted x hx) _)
          (served_mem (i.sorted x hx) hm hreg (lt_trans (WithBot.bot_lt_coe _) hp)) (fun r hr hpr => ?_)
        have hr := served_sub hr
        unfold serve
        cases hc : r.callee with
        | changed =>
          rw [changed_prio i hx hr hc] at hpr
          exact absurd hp (not_lt.mpr hpr)
        | pass q =>
          rw [(pass_reg i hx hr hc).1, le_bot_iff] at hpr
          rw [hpr] at hp
          exact absurd hp not_lt_bot
        | user v => simp
      · refine .flatMap (fun r hr => ?_)
        have hr := served_sub hr
        unfold serve
        cases hc : r.callee with
        | changed => exact .of_not_mem (by simpa using fun h => hxy h.symm)
        | pass q =>
          exact notifyF_before i hreg hp n q none (i.skel.alloc _ _ (pass_reg i hx hr hc).2).2 (.inl rfl)
        | user v => exact .of_not_mem (by simp)
    · exact .of_not_mem (by simp)

theorem triggerF_before (i : Inv s) (hreg : (⟨p, .user u⟩ : Reg) ∈ s.obs y) (hp : ((-100 : Int) : Prio) < p) :
    ∀ (n : Nat) (x : Id) (tp : Bool), x < s.heap.next → Before u y (State.triggerF n s x tp)
  | 0, _, _, _ => .of_not_mem (by simp [State.triggerF])
  | n + 1, x, tp, hx => by
    unfold State.triggerF
    refine .append (.flatMap fun c hc => ?_) (notifyF_before i hreg hp _ x _ hx (by cases tp <;> simp))
    exact triggerF_before i hreg hp n c false (i.skel.alloc _ _ ((i.skel.mem_iff _ _).mp
      (List.mem_of_mem_filter hc))).1

theorem trigger_before (i : Inv s) (hreg : (⟨p, .user u⟩ : Reg) ∈ s.obs y) (hp : ((-100 : Int) : Prio) < p)
    {x : Id} (hx : x < s.heap.next) (tp : Bool) : Before u y (s.triggerUpdate x tp) := by
  unfold State.triggerUpdate
  split
  · exact .of_not_mem (by simp)
  · exact triggerF_before i hreg hp _ x tp hx

end own

/-! ### The cached methods of the objects below -/

section deeper
variable {s : State T} {y z u : Nat} {p : Prio}

theorem notifyF_deep (i : Inv s) (hreg : (⟨p, .user u⟩ : Reg) ∈ s.obs z) (hp : ⊥ < p)
    (hyz : Anc s.heap.toGraph y z) (hne : y ≠ z) :
    ∀ (n : Nat) (x : Id), x < s.heap.next → Anc s.heap.toGraph z x → Before u y (State.notifyF n s x none)
  | 0, _, _, _ => .of_not_mem (by simp [State.notifyF])
  | n + 1, x, hx, hzx => by
    have hxy : y ≠ x := by
      rintro rfl
      exact hne (i.skel.anc_antisymm hyz hzx)
    rw [notifyF_succ]
    split
    · cases hzx with
      | refl =>
        refine round_before (served_sorted (i.sorted z hx) _)
          (served_mem (i.sorted z hx) (.inl rfl) hreg hp) (fun r hr hpr => ?_)
        have hr := served_sub hr
        unfold serve
        cases hc : r.callee with
        | changed => simpa using hxy
        | pass q =>
          rw [(pass_reg i hx hr hc).1, le_bot_iff] at hpr
          rw [hpr] at hp
          exact absurd hp (lt_irrefl _)
        | user v => simp
      | @step q _ hzq hpq =>
        refine .flatMap (fun r hr => ?_)
        have hr := served_sub hr
        unfold serve
        cases hc : r.callee with
        | changed => exact .of_not_mem (by simpa using hxy)
        | pass q' =>
          have := (pass_reg i hx hr hc).2
          rw [show s.heap.parent x = some q from hpq] at this
          cases this
          exact notifyF_deep i hreg hp hyz hne n q (i.skel.alloc _ _ hpq).2 hzq
        | user v => exact .of_not_mem (by simp)
    · exact .of_not_mem (by simp)

theorem notify_own_changed (i : Inv s) {x : Id} (hx : x < s.heap.next) (hxy : y ≠ x) :
    .changed y ∉ s.notify x (some ⊥) := by
  unfold State.notify Hier.Graph.fuel
  rw [notifyF_succ]
  split
  · rw [List.mem_flatMap]
    rintro ⟨r, hr, hm⟩
    have hr' := served_sub hr
    unfold serve at hm
    cases hc : r.callee with
    | changed => rw [hc] at hm; simp at hm; exact hxy hm
    | pass q =>
      have h1 := (pass_reg i hx hr' hc).1
      unfold served at hr
      simp only [] at hr
      rw [takeWhile_sorted (i.sorted x hx), List.mem_filter, h1] at hr
      simp at hr
    | user v => rw [hc] at hm; simp at hm
  · simp

theorem triggerF_changed_anc (i : Inv s) : ∀ (n : Nat) (x : Id), x < s.heap.next →
    .changed y ∈ State.triggerF n s x false → Anc s.heap.toGraph x y
  | 0, _, _, h => by simp [State.triggerF] at h
  | n + 1, x, hx, h => by
    unfold State.triggerF at h
    rw [List.mem_append, List.mem_flatMap] at h
    rcases h with ⟨c, hc, h⟩ | h
    · have hpc := (i.skel.mem_iff _ _).mp (List.mem_of_mem_filter hc)
      exact (Anc.of_parent hpc).trans (triggerF_changed_anc i n c (i.skel.alloc _ _ hpc).1 h)
    · by_cases hxy : y = x
      · subst hxy; exact .refl
      · exact absurd h (notify_own_changed i hx hxy)

theorem triggerF_deep (i : Inv s) (hreg : (⟨p, .user u⟩ : Reg) ∈ s.obs z) (hp : ⊥ < p)
    (hyz : Anc s.heap.toGraph y z) (hne : y ≠ z) (hz : z < s.heap.next) (hon : s.on z = true)
    (hf : s.heap.isFixed z = false) {d : Id → Nat}
    (hd : ∀ c p, s.heap.parent c = some p → d p < d c) (hb : ∀ x, d x ≤ s.heap.next) :
    ∀ (n : Nat) (x : Id), s.heap.next < n + d x → x < s.heap.next → Before u y (State.triggerF n s x false)
  | 0, x, hN, _ => absurd (hb x) (by omega)
  | n + 1, x, hN, hx => by
    unfold State.triggerF
    have kids : Before u y (((s.heap.kids x).filter (fun c => !s.heap.isFixed c)).flatMap
        (fun c => State.triggerF n s c false)) := by
      refine .flatMap fun c hc => ?_
      have hpc := (i.skel.mem_iff _ _).mp (List.mem_of_mem_filter hc)
      have := hd _ _ hpc
      exact triggerF_deep i hreg hp hyz hne hz hon hf hd hb n c (by omega) (i.skel.alloc _ _ hpc).1
    by_cases hxy : y = x
    · subst hxy
      refine kids.told ?_
      rcases (awake_of_not_fixed i hyz hf).cases_child with rfl | ⟨c, hpc, hfc, hc⟩
      · exact absurd rfl hne
      · have := hd _ _ hpc
        rw [List.mem_flatMap]
        refine ⟨c, ?_, triggerF_user i hz hreg hp hon hd hb n c (by omega) hc⟩
        rw [List.mem_filter]
        exact ⟨(i.skel.mem_iff _ _).mpr hpc, by simp [hfc]⟩
    · exact kids.append (.of_not_mem (notify_own_changed i hx hxy))

theorem trigger_deep (i : Inv s) (hreg : (⟨p, .user u⟩ : Reg) ∈ s.obs z) (hp : ⊥ < p)
    (hyz : Anc s.heap.toGraph y z) (hne : y ≠ z) (hz : z < s.heap.next) (hon : s.on z = true) {m : Id}
    (hm : m < s.heap.next)
    (hzm : Anc s.heap.toGraph z m ∨ Anc s.heap.toGraph m z ∧ s.heap.isFixed z = false) :
    Before u y (s.triggerUpdate m true) := by
  unfold State.triggerUpdate
  split
  · exact .of_not_mem (by simp)
  · obtain ⟨d, hd, hb⟩ := i.skel.rank
    unfold Hier.Graph.fuel State.triggerF
    rw [if_pos rfl]
    have up : Anc s.heap.toGraph z m → Before u y ((((s.heap.kids m).filter (fun c => !s.heap.isFixed c)).flatMap
        (fun c => State.triggerF s.heap.next s c false)) ++ s.notify m none) := by
      intro h
      refine .append (.flatMap fun c hc => .of_not_mem fun hmem => ?_) (notifyF_deep i hreg hp hyz hne _ m hm h)
      have hpc := (i.skel.mem_iff _ _).mp (List.mem_of_mem_filter hc)
      have hcy := triggerF_changed_anc i _ c (i.skel.alloc _ _ hpc).1 hmem
      have := i.skel.anc_antisymm (Anc.of_parent hpc) ((hcy.trans hyz).trans h)
      subst this
      exact absurd (hd _ _ hpc) (lt_irrefl _)
    rcases hzm with h | ⟨h, hf⟩
    · exact up h
    · rcases (awake_of_not_fixed i h hf).cases_child with rfl | ⟨c, hpc, hfc, hc⟩
      · exact up .refl
      · refine Before.told (.flatMap fun c' hc' => ?_) ?_
        · have hpc' := (i.skel.mem_iff _ _).mp (List.mem_of_mem_filter hc')
          have := hd _ _ hpc'
          exact triggerF_deep i hreg hp hyz hne hz hon hf hd hb _ c' (by omega) (i.skel.alloc _ _ hpc').1
        · have := hd _ _ hpc
          rw [List.mem_flatMap]
          refine ⟨c, ?_, triggerF_user i hz hreg hp hon hd hb _ c (by omega) hc⟩
          rw [List.mem_filter]
          exact ⟨(i.skel.mem_iff _ _).mpr hpc, by simp [hfc]⟩

end deeper

/-- When a call changes an element below `z`, every `parameters_changed` of `z` or of an object above it that
the call makes comes after the observers of `z` were told (if their priority is above that of
`parameters_changed` itself, `-100`). -/
theorem told_before_partial {w : World T V} (hw : Hist w) {a : Act T V} (ha : a.OK w) {x y z u k : Nat} {p : Prio}
    (hch : a.vals w.val x k ≠ w.val x k) (hzx : Anc w.s.heap.toGraph z x) (hyz : Anc w.s.heap.toGraph y z)
    (hreg : (⟨p, .user u⟩ : Reg) ∈ w.s.obs z) (hp : ((-100 : Int) : Prio) < p) (hon : ∀ z, w.s.on z = true)
    (hfix : ∀ m f, a = .assignAll m f → Anc w.s.heap.toGraph z m ∨ w.s.heap.isFixed z = false) :
    Before u y (a.exec w.s).2 := by
  have hr := hw.reach
  have i := hr.inv
  have hbot : ⊥ < p := lt_trans (WithBot.bot_lt_coe _) hp
  have ntf : ∀ {s : State T} (_ : Inv s) (_ : s.heap.toGraph = w.s.heap.toGraph) (_ : s.obs = w.s.obs) {n : Id},
      n < w.s.heap.next → Anc w.s.heap.toGraph z n → Before u y (s.notify n none) := by
    intro s is hg ho n hn hzn
    by_cases hyz' : y = z
    · subst hyz'
      exact notifyF_before is (by rw [ho]; exact hreg) hp _ n none
        (by rw [show s.heap.next = w.s.heap.next from congrArg Hier.Graph.next hg]; exact hn) (.inl rfl)
    · exact notifyF_deep is (by rw [ho]; exact hreg) hbot (by rw [hg]; exact hyz) hyz' _ n
        (by rw [show s.heap.next = w.s.heap.next from congrArg Hier.Graph.next hg]; exact hn) (by rw [hg]; exact hzn)
  have trig : ∀ {s : State T} (_ : Inv s) (_ : s.heap.toGraph = w.s.heap.toGraph) (_ : s.obs = w.s.obs)
      (_ : s.on = w.s.on) {m : Id}, m < w.s.heap.next → Anc w.s.heap.toGraph m x →
      (Anc w.s.heap.toGraph z m ∨ s.heap.isFixed z = false) → Before u y (s.triggerUpdate m true) := by
    intro s is hg ho hs m hm hmx hf
    have hn : s.heap.next = w.s.heap.next := congrArg Hier.Graph.next hg
    by_cases hyz' : y = z
    · subst hyz'
      exact trigger_before is (by rw [ho]; exact hreg) hp (by rw [hn]; exact hm) true
    · refine trigger_deep is (by rw [ho]; exact hreg) hbot (by rw [hg]; exact hyz) hyz' ?_ (by rw [hs]; exact hon z)
        (by rw [hn]; exact hm) ?_
      · rw [hn]; exact i.skel.anc_lt hzx (i.skel.desc_lt hmx hm)
      · rw [hg]
        rcases hf with h | h
        · exact .inl h
        · rcases hzx.total hmx with h' | h'
          · exact .inl h'
          · exact .inr ⟨h', h⟩
  cases a with
  | ev e => exact absurd rfl hch
  | assign v f =>
    obtain ⟨hv, hl, hc⟩ := ha
    obtain ⟨rfl, -⟩ := hc x k hch
    exact ntf i rfl rfl hv hzx
  | assignAll m f =>
    obtain ⟨hm, -, hi, -, hc⟩ := ha
    exact trig i rfl rfl rfl hm (hc x k hch).1 (hfix m f rfl)
  | optimizer m f =>
    obtain ⟨hm, hi, hc⟩ := ha
    obtain ⟨h1, h2, h3, h4⟩ := hc x k hch
    have hx := i.skel.desc_lt h1 hm
    exact trig i rfl rfl rfl hm h1 (.inr (not_fixed_of i (i.skel.anc_lt hzx hx) hzx h2 h3 h4))
  | randomize m f =>
    obtain ⟨hm, hi, hc⟩ := ha
    obtain ⟨h1, h2, h3, h4⟩ := hc x k hch
    have hx := i.skel.desc_lt h1 hm
    show Before u y (randomizeCalls w.s m).2
    rw [(randomize_on hr hm (fun z _ => hon z)).2]
    exact trig i rfl rfl rfl hm h1 (.inr (not_fixed_of i (i.skel.anc_lt hzx hx) hzx h2 h3 h4))
  | constrain t c f =>
    obtain ⟨had, hi, hc⟩ := ha
    obtain ⟨h1, h2, h3⟩ := hc x k hch
    have ok := had.1
    have i' : Inv (exec w.s (.hier (.constrain t (.tr c)))).1 := exec_inv i had
    have hanc := h3.anc i.wf
    have hx := i.skel.desc_lt hanc ok.lt
    have same := ((Hier.Heap.constraining_wf i.wf ok).1 (.tr c)).2
    have hg : (exec w.s (.hier (.constrain t (.tr c)))).1.heap.toGraph = w.s.heap.toGraph := same.graph
    have hnf : (exec w.s (.hier (.constrain t (.tr c)))).1.heap.isFixed z = false := by
      refine not_fixed_of i' (k := k) (x := x) ?_ (by rw [hg]; exact hzx) ?_ ?_ ?_
      · rw [show (exec w.s (.hier (.constrain t (.tr c)))).1.heap.next = w.s.heap.next from
          congrArg Hier.Graph.next hg]
        exact i.skel.anc_lt hzx hx
      · exact (congrFun (congrArg Hier.Graph.leaf hg) x).trans h1
      · have : (exec w.s (.hier (.constrain t (.tr c)))).1.heap.size x = w.s.heap.size x :=
          congrFun (congrArg Hier.Graph.size hg) x
        rw [this]; exact h2
      · intro hk
        have := ((Hier.Heap.constrain_exact i.quiet.reach ok c hx h1 h2 .fixed).1 h3).mp hk
        cases this
    show Before u y ((if w.s.heap.leaf t.obj then w.s.notify t.obj none else []) ++
      (exec w.s (.hier (.constrain t (.tr c)))).1.triggerUpdate t.obj true)
    refine .append ?_ (trig i' hg rfl rfl ok.lt hanc (.inr hnf))
    split
    · rename_i hl
      have : x = t.obj := leaf_above i.skel hl hanc
      exact ntf i rfl rfl ok.lt (this ▸ hzx)
    · exact .of_not_mem (by simp)

/-- Inside every `parameters_changed` of `z`, or of an object above `z`, a cached method of `z` returns what it
would compute from the current values. (`pre` are the calls made before, `c` the state before the change.)
Missing for the full claim: `parent_in_update_fails`, `sibling_in_update_fails`, and what is missing in
`cached_partial`. -/
theorem cached_in_update_partial {F : (Id → Nat → Option V) → R} {z u : Nat} {c : CWorld T V R}
    (hc : CHist F z u c) {a : Act T V} (ha : (CAct.act a).OK z u c) {y : Id} {pre post : List Call}
    (hyz : Anc c.w.s.heap.toGraph y z) (hcalls : (a.exec c.w.s).2 = pre ++ .changed y :: post) :
    result F z u ⟨step c.w a, marked u pre c.memo⟩ = some (F (valuesOf (step c.w a) z)) := by
  have i := hc.inv
  obtain ⟨hok, h1, h2, h3, h4⟩ := ha
  have stale : ∀ (w : World T V) (r : R),
      result F z u ⟨w, some (r, true)⟩ = some (F (valuesOf w z)) := fun _ _ => rfl
  cases hm : c.memo with
  | none =>
    have : marked u pre (none : Option (R × Bool)) = none := by unfold marked; split <;> rfl
    rw [this]; rfl
  | some e =>
    obtain ⟨r, b⟩ := e
    unfold marked
    split
    · exact stale _ r
    · rename_i hn
      cases b with
      | true => exact stale _ r
      | false =>
        have hreg := i.reg (by rw [hm]; exact Option.some_ne_none _)
        show some r = _
        rw [i.fresh r hm, valuesOf_congr (w := c.w) (w' := step c.w a) (below_same i.hist hok i.lt h3)]
        intro x k hb
        show a.vals c.w.val x k = _
        by_contra hch
        refine hn (told_before_partial i.hist hok hch hb.1 hyz hreg ?_ i.on ?_ pre post hcalls)
        · exact WithBot.coe_lt_coe.mpr (by decide)
        · intro m f hma
          rcases h4 m f hma with h | h
          · subst hma; exact absurd (h x k hb) hch
          · exact h

/-! ### Concrete histories -/

/-- The optimiser changes everything free: the cached method of node `6` is told before `parameters_changed` of
`2`, which is above it, runs. -/
example : (Act.exec (after 6 11).s (.optimizer 0 (ones watched [1, 3, 4, 7]) : Act Nat Nat)).2 =
    [.user 9, .user 11, .changed 6] ++ .changed 2 :: [.user 10, .changed 0] ∧
    Anc (after 6 11).s.heap.toGraph 2 6 :=
  ⟨by decide +kernel, .of_parent (by decide +kernel)⟩

/-- `parameters_changed` of node `6` uses a cached method of its parent `2`: when the optimiser changes `3` and
`7`, it gets the result for the old values. -/
theorem parent_in_update_fails :
    let F : (Id → Nat → Option Nat) → Option Nat := fun g => g 7 1
    let a : Act Nat Nat := .optimizer 0 (ones watched [3, 7])
    CHist F 2 11 ⟨after 2 11, some (some 0, false)⟩ ∧ a.OK (after 2 11) ∧
    (a.exec (after 2 11).s).2 = [.user 9] ++ .changed 6 :: [.user 11, .changed 2, .user 10, .changed 0] ∧
    result F 2 11 ⟨step (after 2 11) a, marked 11 [.user 9] (some (some 0, false))⟩ = some (some 0) ∧
    F (valuesOf (step (after 2 11) a) 2) = some 1 := by
  intro F a
  have start := after_hist (F := F) (y := 2) (u := 11) (by decide +kernel)
  rw [show F (valuesOf zero 2) = some 0 from deep_start] at start
  refine ⟨start, optimizer_ok (by simp) 2 11, by decide +kernel, ?_, ?_⟩
  · have : marked 11 [.user 9] (some ((some 0 : Option Nat), false)) = some (some 0, false) := by
      unfold marked; rw [if_neg (by decide)]
    rw [this]; exact result_same
  · exact (deep_value _ _ 2 11).trans (by decide +kernel)

/-- Two nodes `1` and `3` of one root; `parameters_changed` of `1` uses a cached method of `3`: when both their
`Param`s are set through the root, it gets the result for the old values. -/
theorem sibling_in_update_fails :
    let s := (exec siblings (.addObserver 3 11 (0 : Int))).1
    Reach s ∧ (⟨(0 : Int), .user 11⟩ : Reg) ∈ s.obs 3 ∧ s.heap.isFixed 3 = false ∧
    (Act.exec s (.optimizer 0 (fun _ _ => 1) : Act Nat Nat)).2 =
      [] ++ .changed 1 :: [.user 11, .changed 3, .changed 0] := by
  refine ⟨.step (e := .addObserver 3 11 (0 : Int)) siblings_reach (by show (3 : Nat) < _; decide +kernel), ?_⟩
  decide +kernel

end Paramz.Notify

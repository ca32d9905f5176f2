import Verif.Notify.Raising

/-!
# What an update that raised leaves behind

C90. `Site.Current`, `Site.OptCurrent` and `Site.Whole` are the specification.
-/

namespace Paramz.Notify

open Hier (Heap Id upd upd_same upd_ne)
open Hier.Graph (Anc)

variable {T : Type} [DecidableEq T] {V : Type}

namespace Site

/-- What `n.parameters_changed()` computed last belongs to the present values of all the elements below `n`. -/
def Current (w : Site T V) (n : Id) : Prop :=
  ∀ y k, Anc w.s.heap.toGraph n y → w.s.heap.leaf y = true → k < w.s.heap.size y → w.seen n y k = w.val y k

/-- `n.optimizer_array` is that of the present values of all the elements below `n`. -/
def OptCurrent (w : Site T V) (n : Id) : Prop :=
  ∀ y k, Anc w.s.heap.toGraph n y → w.s.heap.leaf y = true → k < w.s.heap.size y → w.optArray n y k = w.val y k

/-! ### The calls one after the other -/

theorem perform_val (boom : Boom V) : ∀ (l : List Call) (w : Site T V),
    (w.perform boom l).1.val = w.val ∧ (w.perform boom l).1.s = w.s
  | [], _ => ⟨rfl, rfl⟩
  | .changed x :: l, w => by
    simp only [perform]
    split
    · exact ⟨rfl, rfl⟩
    · exact perform_val boom l _
  | .user u :: l, w => by
    simp only [perform]
    split
    · exact ⟨rfl, rfl⟩
    · exact perform_val boom l _

/-- The calls that came to their end, and the one that raised. -/
theorem perform_spec (boom : Boom V) : ∀ (l : List Call) (w : Site T V),
    ∃ A B, l = A ++ B ∧ (∀ c ∈ A, boom c w.val = false) ∧
      ((w.perform boom l).2 = none ∧ B = [] ∨
        ∃ c B', B = c :: B' ∧ boom c w.val = true ∧ (w.perform boom l).2 = some c) ∧
      (∀ n, n ∈ changedOf A → (w.perform boom l).1.seen n = w.val) ∧
      (∀ n, n ∉ changedOf A → (w.perform boom l).1.seen n = w.seen n) ∧
      (∀ n, n ∈ changedOf (A ++ B.take 1) → (w.perform boom l).1.copy n = none) ∧
      (∀ n, n ∉ changedOf (A ++ B.take 1) → (w.perform boom l).1.copy n = w.copy n)
  | [], w => ⟨[], [], rfl, by simp, .inl ⟨rfl, rfl⟩, by simp [changedOf], fun _ _ => rfl, by simp [changedOf],
      fun _ _ => rfl⟩
  | .changed x :: l, w => by
    by_cases hb : boom (.changed x) w.val = true
    · refine ⟨[], .changed x :: l, rfl, by simp, .inr ⟨_, _, rfl, hb, ?_⟩, by simp [changedOf], ?_, ?_, ?_⟩
      · simp only [perform, hb, if_true]
      · intro n _; simp only [perform, hb, if_true]
      · intro n hn
        have : n = x := by simpa [changedOf] using hn
        subst this
        simp only [perform, hb, if_true]; exact upd_same _ _ _
      · intro n hn
        have : n ≠ x := by simpa [changedOf] using hn
        simp only [perform, hb, if_true]; exact upd_ne _ _ this
    · have hb' : boom (.changed x) w.val = false := by simpa using hb
      obtain ⟨A, B, h1, h2, h3, h4, h5, h6, h7⟩ := perform_spec boom l
        { w with copy := upd w.copy x none, seen := upd w.seen x w.val }
      have he : w.perform boom (.changed x :: l) =
          perform boom { w with copy := upd w.copy x none, seen := upd w.seen x w.val } l := by
        simp only [perform, hb', Bool.false_eq_true, if_false]
      rw [he]
      have hmem : ∀ (L : List Call) n, n ∈ changedOf (.changed x :: L) ↔ n = x ∨ n ∈ changedOf L := by
        intro L n; simp [changedOf]
      refine ⟨.changed x :: A, B, by rw [h1]; rfl, ?_, h3, ?_, ?_, ?_, ?_⟩
      · intro c hc
        rcases List.mem_cons.mp hc with rfl | hc
        · exact hb'
        · exact h2 c hc
      · intro n hn
        by_cases hA : n ∈ changedOf A
        · exact h4 n hA
        · rw [h5 n hA]
          rcases (hmem A n).mp hn with rfl | h
          · exact upd_same _ _ _
          · exact absurd h hA
      · intro n hn
        rw [hmem] at hn
        rw [h5 n (fun h => hn (.inr h))]
        exact upd_ne _ _ (fun h => hn (.inl h))
      · intro n hn
        by_cases hA : n ∈ changedOf (A ++ B.take 1)
        · exact h6 n hA
        · rw [h7 n hA]
          rw [List.cons_append] at hn
          rcases (hmem _ n).mp hn with rfl | h
          · exact upd_same _ _ _
          · exact absurd h hA
      · intro n hn
        rw [List.cons_append, hmem] at hn
        rw [h7 n (fun h => hn (.inr h))]
        exact upd_ne _ _ (fun h => hn (.inl h))
  | .user u :: l, w => by
    by_cases hb : boom (.user u) w.val = true
    · refine ⟨[], .user u :: l, rfl, by simp, .inr ⟨_, _, rfl, hb, ?_⟩, by simp [changedOf], ?_,
        by simp [changedOf], ?_⟩
      · simp only [perform, hb, if_true]
      · intro n _; simp only [perform, hb, if_true]
      · intro n hn
        simp only [perform, hb, if_true]
    · have hb' : boom (.user u) w.val = false := by simpa using hb
      obtain ⟨A, B, h1, h2, h3, h4, h5, h6, h7⟩ := perform_spec boom l w
      have he : w.perform boom (.user u :: l) = perform boom w l := by
        simp only [perform, hb', Bool.false_eq_true, if_false]
      rw [he]
      refine ⟨.user u :: A, B, by rw [h1]; rfl, ?_, h3, h4, h5, h6, h7⟩
      intro c hc
      rcases List.mem_cons.mp hc with rfl | hc
      · exact hb'
      · exact h2 c hc

/-- Without an exception everybody called is up to date. -/
theorem perform_ok {boom : Boom V} {l : List Call} {w : Site T V} (h : (w.perform boom l).2 = none) :
    (∀ n, n ∈ changedOf l → (w.perform boom l).1.seen n = w.val ∧ (w.perform boom l).1.copy n = none) ∧
    (∀ n, n ∉ changedOf l → (w.perform boom l).1.seen n = w.seen n ∧ (w.perform boom l).1.copy n = w.copy n) := by
  obtain ⟨A, B, h1, -, h3, h4, h5, h6, h7⟩ := perform_spec boom l w
  rcases h3 with ⟨-, rfl⟩ | ⟨c, B', -, -, h⟩
  · simp only [List.take_nil, List.append_nil] at h1 h6 h7
    subst h1
    exact ⟨fun n hn => ⟨h4 n hn, h6 n hn⟩, fun n hn => ⟨h5 n hn, h7 n hn⟩⟩
  · rename_i h'
    rw [h'] at h; cases h

/-- It raises iff one of the calls does. -/
theorem perform_none_iff {boom : Boom V} {l : List Call} {w : Site T V} :
    (w.perform boom l).2 = none ↔ ∀ c ∈ l, boom c w.val = false := by
  obtain ⟨A, B, h1, h2, h3, -⟩ := perform_spec boom l w
  rcases h3 with ⟨h, rfl⟩ | ⟨c, B', rfl, hb, h⟩
  · rw [List.append_nil] at h1
    subst h1
    exact ⟨fun _ => h2, fun _ => h⟩
  · rw [h]
    refine ⟨(fun h => by cases h), fun h' => ?_⟩
    have := h' c (by rw [h1]; simp)
    rw [hb] at this; cases this

/-! ### Every call is: values first, then notifications -/

/-- Without exceptions: the site before the notifications, and the notifications. -/
def plan (w : Site T V) : Deed V → Site T V × List Call
  | .assign x f => ({ w with val := f }, w.s.write x)
  | .assignAll m f => ({ w with val := f }, w.s.triggerUpdate m true)
  | .optimizer m f => ({ w with val := f, copy := upd w.copy m none }, w.s.triggerUpdate m true)
  | .randomize m f =>
    ({ w with s := (randomizeCalls w.s m).1, val := f, copy := upd w.copy m none }, (randomizeCalls w.s m).2)
  | .trigger x tp => (w, w.s.triggerUpdate x tp)
  | .switch x b => ({ w with s := (w.s.updateModel x b).1 }, (w.s.updateModel x b).2)
  | .read x => ({ w with copy := upd w.copy x (some (w.optArray x)) }, [])

theorem silent {s : State T} {m : Id} (h : s.on m = false) (tp : Bool) : s.triggerUpdate m tp = [] := by
  unfold State.triggerUpdate
  rw [h]; rfl

theorem switched_off {s : State T} (hr : Reach s) (m : Id) : (s.updateModel m false).1.on m = false :=
  (update_model_switches hr (x := m) false m).1 (hr.inv.skel.highest_spec m).2

theorem act_plan {boom : Boom V} {w : Site T V} (hr : Reach w.s) (d : Deed V) :
    w.act boom d = (w.plan d).1.perform boom (w.plan d).2 := by
  cases d with
  | assign x f => rfl
  | assignAll m f => rfl
  | optimizer m f => rfl
  | trigger x tp => rfl
  | switch x b => rfl
  | read x => rfl
  | randomize m f =>
    have hoff := switched_off hr m
    have c1 : (w.s.updateModel m false).2 = [] := silent hoff true
    have c2 : (exec (exec w.s (.updateModel m false)).1 (.trigger m true)).2 = [] := silent hoff true
    have e1 : w.switch boom m false = ({ w with s := (w.s.updateModel m false).1 }, none) := by
      simp only [switch]; rw [c1]; rfl
    have e2 : (Site.setOpt boom { w with s := (w.s.updateModel m false).1 } m f) =
        ({ w with s := (w.s.updateModel m false).1, val := f, copy := upd w.copy m none }, none) := by
      simp only [setOpt]; rw [silent hoff true]; rfl
    have hc : (randomizeCalls w.s m).2 =
        ((w.s.updateModel m false).1.updateModel m (w.s.on m)).2 := by
      show (exec w.s (.updateModel m false)).2 ++ (exec (exec w.s (.updateModel m false)).1 (.trigger m true)).2 ++
        _ = _
      rw [c2]
      show (w.s.updateModel m false).2 ++ [] ++ _ = _
      rw [c1]; rfl
    simp only [act]
    rw [e1]
    simp only [andThen]
    rw [e2]
    simp only [plan]
    rw [hc]
    rfl

theorem plan_heap (w : Site T V) (d : Deed V) : (w.plan d).1.s.heap = w.s.heap ∧ (w.plan d).1.s.obs = w.s.obs ∧
    (w.plan d).1.val = d.vals w.val ∧ (w.plan d).1.seen = w.seen := by
  cases d <;> exact ⟨rfl, rfl, rfl, rfl⟩

theorem plan_reach {w : Site T V} (hr : Reach w.s) {d : Deed V} (ok : d.OK w.s w.val) : Reach (w.plan d).1.s := by
  cases d with
  | assign x f => exact hr
  | assignAll m f => exact hr
  | optimizer m f => exact hr
  | trigger x tp => exact hr
  | switch x b => exact .step (e := .updateModel x b) hr ok
  | read x => exact hr
  | randomize m f =>
    exact .step (e := .updateModel m _) (.step (e := .trigger m true)
      (.step (e := .updateModel m false) hr ok.1) ok.1) ok.1

theorem act_s {boom : Boom V} {w : Site T V} (hr : Reach w.s) (d : Deed V) :
    (w.act boom d).1.s = (w.plan d).1.s ∧ (w.act boom d).1.val = d.vals w.val := by
  rw [act_plan hr d]
  obtain ⟨h1, h2⟩ := perform_val boom (w.plan d).2 (w.plan d).1
  exact ⟨h2, h1.trans (plan_heap w d).2.2.1⟩

theorem Past.reach {boom : Boom V} {w : Site T V} (hw : Past boom w) : Reach w.s := by
  induction hw with
  | start v h => exact h
  | @step w d _ ok ih =>
    rw [(act_s ih d).1]
    exact plan_reach ih ok

theorem Lit.past {boom : Boom V} {w : Site T V} (hw : Lit boom w) : Past boom w := by
  induction hw with
  | start v h _ => exact .start v h
  | step _ ok _ ih => exact .step ih ok

/-- With updates on, no call other than `update_model(False)` changes the switches. -/
theorem plan_lit {w : Site T V} (hr : Reach w.s) (hon : ∀ z, w.s.on z = true) {d : Deed V} (ok : d.OK w.s w.val)
    (hb : ∀ x, d ≠ .switch x false) : (w.plan d).1.s = w.s := by
  cases d with
  | assign x f => rfl
  | assignAll m f => rfl
  | optimizer m f => rfl
  | trigger x tp => rfl
  | read x => rfl
  | randomize m f => exact (randomize_on hr ok.1 (fun z _ => hon z)).1
  | switch x b =>
    cases b with
    | false => exact absurd rfl (hb x)
    | true =>
      have h := exec_all_on (e := .updateModel x true) hon (fun y h => by cases h)
      show (w.s.updateModel x true).1 = w.s
      have ho : (w.s.updateModel x true).1.on = w.s.on := by
        funext z; rw [hon z]; exact h z
      obtain ⟨⟨h, o, b⟩, v, se, c⟩ := w
      simp only [State.updateModel, State.mk.injEq, true_and] at ho ⊢
      exact ⟨ho, trivial⟩

theorem Lit.on {boom : Boom V} {w : Site T V} (hw : Lit boom w) : ∀ z, w.s.on z = true := by
  induction hw with
  | start v _ h => exact h
  | @step w d hl ok hb ih =>
    rw [(act_s hl.past.reach d).1, plan_lit hl.past.reach ih ok hb]
    exact ih

/-! ### Who is told -/

theorem told_below {s : State T} (hr : Reach s) {m n : Id} (hm : m < s.heap.next) (hi : s.heap.inInit m = false)
    (hup : ∀ z, Anc s.heap.toGraph z m → s.on z = true) (hl : s.heap.leaf n = false) (hon : s.on n = true)
    (hn : Anc s.heap.toGraph n m ∨ Awake s.heap m n) : n ∈ changedOf (s.triggerUpdate m true) := by
  obtain ⟨L, ha⟩ := above_exists hr m
  obtain ⟨D, h1, -, h3, -⟩ := trigger_update_spec hr hm ha hi true (hup m .refl)
    (fun y hy => hup y ((ha.mem hr.inv.skel y).mp hy).1)
  rw [h1, if_pos rfl, List.mem_append]
  rcases hn with h | h
  · by_cases hnm : n = m
    · subst hnm
      exact .inl ((h3 n).mpr ⟨hl, hon, .refl⟩)
    · exact .inr ((ha.mem hr.inv.skel n).mpr ⟨h, hnm⟩)
  · exact .inl ((h3 n).mpr ⟨hl, hon, h⟩)

/-- Whoever has a changed element below is told, if it is not fixed. -/
theorem told_change {w : Site T V} (hr : Reach w.s) (hon : ∀ z, w.s.on z = true) {d : Deed V}
    (ok : d.OK w.s w.val) {n y k : Nat} (hl : w.s.heap.leaf n = false)
    (hf : w.s.heap.isFixed n = false) (hy : Anc w.s.heap.toGraph n y) (hch : d.vals w.val y k ≠ w.val y k) :
    n ∈ changedOf (w.plan d).2 := by
  have i := hr.inv
  have trig : ∀ {m : Id}, m < w.s.heap.next → w.s.heap.inInit m = false → Anc w.s.heap.toGraph m y →
      n ∈ changedOf (w.s.triggerUpdate m true) := by
    intro m hm hi hmy
    refine told_below hr hm hi (fun z _ => hon z) hl (hon n) ?_
    rcases hy.total hmy with h | h
    · exact .inl h
    · exact .inr (awake_of_not_fixed i.toWired h hf)
  cases d with
  | assign x f =>
    obtain ⟨hx, hlx, hc⟩ := ok
    obtain ⟨rfl, -⟩ := hc y k hch
    obtain ⟨L, ha⟩ := above_exists hr y
    obtain ⟨h1, -, h3⟩ := write_updates_ancestors hr hx hlx ha (fun z _ => hon z)
    show n ∈ changedOf (w.s.write y)
    rw [h1, h3]
    exact ⟨hy, fun h => by subst h; rw [hl] at hlx; cases hlx⟩
  | assignAll m f => exact trig ok.1 ok.2.2.1 (ok.2.2.2.2 y k hch).1
  | optimizer m f => exact trig ok.1 ok.2.1 (ok.2.2 y k hch).1
  | randomize m f =>
    show n ∈ changedOf (randomizeCalls w.s m).2
    rw [(randomize_on hr ok.1 (fun z _ => hon z)).2]
    exact trig ok.1 ok.2.1 (ok.2.2 y k hch).1
  | trigger x tp => exact absurd rfl hch
  | switch x b => exact absurd rfl hch
  | read x => exact absurd rfl hch

/-- What a call changes of the optimiser's arrays before the notifications. -/
theorem plan_opt {w : Site T V} {d : Deed V} {n y k : Nat} (hv : d.vals w.val y k = w.val y k)
    (h : w.optArray n y k = w.val y k) : (w.plan d).1.optArray n y k = d.vals w.val y k := by
  have set : ∀ (m : Id) (f : Vals V), f y k = w.val y k →
      (Option.getD (upd w.copy m none n) f) y k = f y k := by
    intro m f hf
    by_cases hm : n = m
    · subst hm; rw [upd_same]; rfl
    · rw [upd_ne _ _ hm]
      cases hc : w.copy n with
      | none => rfl
      | some v => unfold optArray at h; rw [hc] at h; rw [hf]; exact h
  have keep : ∀ (f : Vals V), f y k = w.val y k → (Option.getD (w.copy n) f) y k = f y k := by
    intro f hf
    cases hc : w.copy n with
    | none => rfl
    | some v => unfold optArray at h; rw [hc] at h; rw [hf]; exact h
  cases d with
  | assign x f => exact keep f hv
  | assignAll m f => exact keep f hv
  | optimizer m f => exact set m f hv
  | randomize m f => exact set m f hv
  | trigger x tp => exact h
  | switch x b => exact h
  | read x =>
    show (Option.getD (upd w.copy x (some (w.optArray x)) n) w.val) y k = w.val y k
    by_cases hx : n = x
    · subst hx; rw [upd_same]; exact h
    · rw [upd_ne _ _ hx]; exact h

theorem above_order {g : Hier.Graph} (s : Hier.Graph.Skel g) {x : Id} {L : List Id} (h : Above g x L) :
    L.Pairwise (fun a b => ¬ (Anc g a b ∧ a ≠ b)) := by
  induction h with
  | root _ => exact .nil
  | @up x p l hp h' ih =>
    refine List.pairwise_cons.mpr ⟨fun b hb => ?_, ih⟩
    rintro ⟨h1, h2⟩
    exact h2 (s.anc_antisymm h1 ((h'.mem s b).mp hb).1)

theorem changedOf_cons (r : Id) (B : List Call) : changedOf (.changed r :: B) = r :: changedOf B := rfl

/-- In a round started at `x` nobody is told after the root. -/
theorem root_last {g : Hier.Graph} (sk : Hier.Graph.Skel g) {x r : Id} {l : List Call}
    (hroot : g.parent r = none) (hrel : ∀ n ∈ changedOf l, Anc g n x ∨ Anc g x n) (hnd : (changedOf l).Nodup)
    (hp : (changedOf l).Pairwise (fun a b => ¬ (Anc g a b ∧ a ≠ b))) {A B : List Call}
    (hl : l = A ++ .changed r :: B) : changedOf B = [] := by
  rw [hl, changedOf_append, changedOf_cons] at hp hnd
  have hrx : Anc g r x := by
    rcases hrel r (by rw [hl, changedOf_append, changedOf_cons]; simp) with h | h
    · exact h
    · rw [(Hier.Graph.anc_root hroot).mp h]; exact .refl
  cases hB : changedOf B with
  | nil => rfl
  | cons n B' =>
    exfalso
    have hnB : n ∈ changedOf B := by rw [hB]; simp
    have hrn : Anc g r n := by
      rcases hrel n (by rw [hl, changedOf_append, changedOf_cons]; simp [hnB]) with h | h
      · rcases h.total hrx with h' | h'
        · rw [(Hier.Graph.anc_root hroot).mp h']; exact .refl
        · exact h'
      · exact hrx.trans h
    have h1 := (List.pairwise_cons.mp (List.pairwise_append.mp hp).2.1).1 n hnB
    have h2 := (List.nodup_cons.mp (List.nodup_append.mp hnd).2.1).1
    exact h1 ⟨hrn, fun h => by subst h; exact h2 hnB⟩

theorem trigger_round {s : State T} (hr : Reach s) (hon : ∀ z, s.on z = true) {x : Id} (hx : x < s.heap.next)
    (tp : Bool) : (∀ n ∈ changedOf (s.triggerUpdate x tp), Anc s.heap.toGraph n x ∨ Anc s.heap.toGraph x n) ∧
      (changedOf (s.triggerUpdate x tp)).Nodup ∧
      (changedOf (s.triggerUpdate x tp)).Pairwise (fun a b => ¬ (Anc s.heap.toGraph a b ∧ a ≠ b)) := by
  cases hi : s.heap.inInit x with
  | true =>
    have : s.triggerUpdate x tp = [] := by
      unfold State.triggerUpdate
      rw [hi, Bool.or_true]; rfl
    rw [this]
    exact ⟨(fun n hn => by cases hn), List.Pairwise.nil, List.Pairwise.nil⟩
  | false =>
    have i := hr.inv
    refine ⟨?_, trigger_update_once hr hx hi tp (fun y _ => hon y), ?_⟩
    all_goals
      obtain ⟨L, ha⟩ := above_exists hr x
      obtain ⟨D, h1, -, h3, h4⟩ := trigger_update_spec hr hx ha hi tp (hon x) (fun y _ => hon y)
      rw [h1]
    · intro n hn
      rcases List.mem_append.mp hn with h | h
      · exact .inr ((h3 n).mp h).2.2.anc
      · cases tp with
        | false => cases h
        | true => exact .inl ((ha.mem i.skel n).mp h).1
    · cases tp with
      | false => simpa using h4
      | true =>
        rw [if_pos rfl, List.pairwise_append]
        refine ⟨h4, above_order i.skel ha, fun a h5 b h6 => ?_⟩
        rintro ⟨h7, -⟩
        have h8 := (ha.mem i.skel b).mp h6
        have h9 := ((h3 a).mp h5).2.2.anc
        exact h8.2 (i.skel.anc_antisymm h8.1 (h9.trans h7))

theorem plan_round {w : Site T V} (hr : Reach w.s) (hon : ∀ z, w.s.on z = true) {d : Deed V} (ok : d.OK w.s w.val)
    (hb : ∀ x, d ≠ .switch x false) {r : Id} (hroot : w.s.heap.parent r = none) {A B : List Call}
    (hl : (w.plan d).2 = A ++ .changed r :: B) : changedOf B = [] := by
  have i := hr.inv
  have trig : ∀ {m : Id} {tp : Bool}, m < w.s.heap.next → w.s.triggerUpdate m tp = A ++ .changed r :: B →
      changedOf B = [] := by
    intro m tp hm h
    obtain ⟨h1, h2, h3⟩ := trigger_round hr hon hm tp
    exact root_last i.skel hroot h1 h2 h3 h
  cases d with
  | assign x f =>
    obtain ⟨L, ha⟩ := above_exists hr x
    obtain ⟨h1, h2, h3⟩ := write_updates_ancestors hr ok.1 ok.2.1 ha (fun z _ => hon z)
    refine root_last (x := x) i.skel hroot ?_ ?_ ?_ (show w.s.write x = _ from hl)
    · rw [h1]; exact fun n hn => .inl ((h3 n).mp hn).1
    · rw [h1]; exact h2
    · rw [h1]; exact above_order i.skel ha
  | assignAll m f => exact trig ok.1 hl
  | optimizer m f => exact trig ok.1 hl
  | randomize m f =>
    rw [show (w.plan (.randomize m f)).2 = w.s.triggerUpdate m true from
      (randomize_on hr ok.1 (fun z _ => hon z)).2] at hl
    exact trig ok.1 hl
  | trigger x tp => exact trig ok hl
  | switch x b =>
    have hs := plan_lit hr hon ok hb
    have : (w.plan (.switch x b)).2 = (w.plan (.switch x b)).1.s.triggerUpdate x true := rfl
    rw [this, hs] at hl
    exact trig ok hl
  | read x => exact absurd hl (by simp [plan])

/-! ### C90 -/

/-- Whether or not `parameters_changed` or a callback raises: the values assigned are in place, and the
hierarchy, the update switches and the observers are those of the run in which nothing raises. What raises
is one of the calls, at the new values. -/
theorem raise_leaves {boom : Boom V} {w : Site T V} (hw : Past boom w) (d : Deed V) :
    (w.act boom d).1.val = d.vals w.val ∧
    (w.act boom d).1.s = (w.act (fun _ _ => false) d).1.s ∧
    (w.act boom d).1.s.heap = w.s.heap ∧ (w.act boom d).1.s.obs = w.s.obs ∧
    ∀ c, (w.act boom d).2 = some c → boom c (d.vals w.val) = true := by
  have hr := hw.reach
  obtain ⟨h1, h2⟩ := act_s (boom := boom) hr d
  obtain ⟨h3, -⟩ := act_s (boom := fun _ _ => false) hr d
  refine ⟨h2, h1.trans h3.symm, by rw [h1]; exact (plan_heap w d).1, by rw [h1]; exact (plan_heap w d).2.1, ?_⟩
  intro c hc
  rw [act_plan hr d] at hc
  obtain ⟨A, B, -, -, h4, -⟩ := perform_spec boom (w.plan d).2 (w.plan d).1
  rw [(plan_heap w d).2.2.1] at h4
  rcases h4 with ⟨h, -⟩ | ⟨c', B', -, hb, h⟩
  · rw [h] at hc; cases hc
  · rw [h] at hc; cases hc; exact hb

/-- While updates are on no call but `update_model(False)` leaves them off, even if it raises. -/
theorem raise_keeps_updates_on {boom : Boom V} {w : Site T V} (hw : Lit boom w) {d : Deed V}
    (ok : d.OK w.s w.val) (hb : ∀ x, d ≠ .switch x false) : (w.act boom d).1.s = w.s := by
  rw [(act_s hw.past.reach d).1]
  exact plan_lit hw.past.reach hw.on ok hb

/-- `x[...] = v` when `y.parameters_changed()` raises and none of the objects between `x` and `y` does: the
exception reaches the caller; the objects between are up to date; `y` and all others are as they were. -/
theorem assign_raises {boom : Boom V} {w : Site T V} (hw : Lit boom w) {x y : Id} {f : Vals V} {A B : List Id}
    (ok : (Deed.assign x f).OK w.s w.val) (ha : Above w.s.heap.toGraph x (A ++ y :: B))
    (hu : ∀ u, boom (.user u) f = false) (hA : ∀ n ∈ A, boom (.changed n) f = false)
    (hy : boom (.changed y) f = true) :
    (w.act boom (.assign x f)).2 = some (.changed y) ∧
    (∀ n ∈ A, (w.act boom (.assign x f)).1.seen n = f ∧ (w.act boom (.assign x f)).1.optArray n = f) ∧
    (∀ n, n ∉ A → (w.act boom (.assign x f)).1.seen n = w.seen n) ∧
    (w.act boom (.assign x f)).1.optArray y = f ∧
    (∀ n, n ∉ A → n ≠ y → (w.act boom (.assign x f)).1.copy n = w.copy n) := by
  have hr := hw.past.reach
  obtain ⟨h1, hnd, -⟩ := write_updates_ancestors hr ok.1 ok.2.1 ha (fun z _ => hw.on z)
  have e : w.act boom (.assign x f) = perform boom { w with val := f } (w.s.write x) := rfl
  have hv := (perform_val boom (w.s.write x) { w with val := f }).1
  obtain ⟨C, D, h2, h3, h4, h5, h6, h7, h8⟩ := perform_spec boom (w.s.write x) { w with val := f }
  rw [e]
  rw [h2, changedOf_append] at h1
  have yC : y ∉ changedOf C := by
    intro h
    have : Call.changed y ∈ C := by
      unfold changedOf at h
      obtain ⟨c, hc, hcy⟩ := List.mem_filterMap.mp h
      cases c with
      | changed z => simp at hcy; subst hcy; exact hc
      | user u => simp at hcy
    have := h3 _ this
    rw [show ({ w with val := f } : Site T V).val = f from rfl, hy] at this
    cases this
  rcases h4 with ⟨-, rfl⟩ | ⟨c, D', rfl, hb, hres⟩
  · exfalso
    simp only [changedOf, List.filterMap_nil, List.append_nil] at h1
    exact yC (by unfold changedOf; rw [h1]; simp)
  · cases c with
    | user u => rw [show ({ w with val := f } : Site T V).val = f from rfl, hu u] at hb; cases hb
    | changed z =>
      have hb' : boom (.changed z) f = true := hb
      rw [changedOf_cons] at h1
      have hCA : changedOf C = A ∧ z = y := by
        have hz : z ∉ A := fun h => by rw [hA z h] at hb'; cases hb'
        rcases List.append_eq_append_iff.mp h1 with ⟨a, h9, h10⟩ | ⟨a, h9, h10⟩
        · cases a with
          | nil => simp only [List.nil_append, List.cons.injEq] at h10; exact ⟨by simpa using h9.symm, h10.1⟩
          | cons b a =>
            simp only [List.cons_append, List.cons.injEq] at h10
            obtain ⟨rfl, -⟩ := h10
            exact absurd (by rw [h9]; simp) hz
        · cases a with
          | nil => simp only [List.nil_append, List.cons.injEq] at h10; exact ⟨by simpa using h9, h10.1.symm⟩
          | cons b a =>
            simp only [List.cons_append, List.cons.injEq] at h10
            obtain ⟨rfl, -⟩ := h10
            exact absurd (by rw [h9]; simp) yC
      obtain ⟨hCA, rfl⟩ := hCA
      have ht : changedOf (C ++ (Call.changed z :: D').take 1) = A ++ [z] := by
        rw [changedOf_append, hCA]; rfl
      rw [ht] at h7 h8
      rw [hCA] at h5 h6
      have opt : ∀ n, n ∈ A ++ [z] → (perform boom { w with val := f } (w.s.write x)).1.optArray n = f := by
        intro n hn
        unfold optArray
        rw [h7 n hn]
        exact hv
      exact ⟨hres, fun n hn => ⟨h5 n hn, opt n (by simp [hn])⟩, h6, opt z (by simp),
        fun n h9 h10 => h8 n (by simp [h9, h10])⟩

/-- A call that returns keeps every object that is not fixed up to date, and its optimiser's array. -/
theorem returns_current {boom : Boom V} {w : Site T V} (hw : Lit boom w) {d : Deed V} (ok : d.OK w.s w.val)
    (hb : ∀ x, d ≠ .switch x false) (hret : (w.act boom d).2 = none) {n : Id}
    (hl : w.s.heap.leaf n = false) (hf : w.s.heap.isFixed n = false) :
    (w.Current n → (w.act boom d).1.Current n) ∧ (w.OptCurrent n → (w.act boom d).1.OptCurrent n) := by
  have hr := hw.past.reach
  have hs := raise_keeps_updates_on hw ok hb
  have hv := (act_s (boom := boom) hr d).2
  have he := act_plan (boom := boom) hr d
  rw [he] at hret
  obtain ⟨h1, h2⟩ := perform_ok hret
  rw [← he] at h1 h2
  have hpv := (plan_heap w d).2.2.1
  constructor
  · intro hc y k hy hly hk
    rw [hs] at hy hly hk
    rw [hv]
    by_cases hn : n ∈ changedOf (w.plan d).2
    · rw [(h1 n hn).1, hpv]
    · rw [(h2 n hn).1, (plan_heap w d).2.2.2, hc y k hy hly hk]
      by_contra hne
      exact hn (told_change hr hw.on ok hl hf hy (fun h => hne h.symm))
  · intro hc y k hy hly hk
    rw [hs] at hy hly hk
    rw [hv]
    by_cases hn : n ∈ changedOf (w.plan d).2
    · unfold optArray
      rw [(h1 n hn).2, hv]; rfl
    · have hsame : d.vals w.val y k = w.val y k := by
        by_contra hne
        exact hn (told_change hr hw.on ok hl hf hy hne)
      have := plan_opt hsame (hc y k hy hly hk)
      unfold optArray at this ⊢
      rw [(h2 n hn).2, hv]
      rw [hpv] at this
      exact this

/-- If nothing ever raises, everything that is not fixed is always up to date. -/
theorem never_raises_current {boom : Boom V} (hb : ∀ c v, boom c v = false) {w : Site T V} (hw : Lit boom w) {n : Id}
    (hl : w.s.heap.leaf n = false) (hf : w.s.heap.isFixed n = false) : w.Current n ∧ w.OptCurrent n := by
  induction hw with
  | start v h _ => exact ⟨fun _ _ _ _ _ => rfl, fun _ _ _ _ _ => rfl⟩
  | @step w d hw ok hne ih =>
    have hs := raise_keeps_updates_on hw ok hne
    rw [hs] at hl hf
    have hret : (w.act boom d).2 = none := by
      rw [act_plan hw.past.reach d, perform_none_iff]
      exact fun c _ => hb c _
    obtain ⟨h1, h2⟩ := returns_current hw ok hne hret hl hf
    exact ⟨h1 (ih hl hf).1, h2 (ih hl hf).2⟩

/-- Repeating an assignment until it returns: then everything above the parameter is up to date, whatever
had been raised before. -/
theorem retry_current {boom : Boom V} {w : Site T V} (hw : Past boom w) {x n : Id} {f : Vals V}
    (ok : (Deed.assign x f).OK w.s w.val) (hon : ∀ z, Anc w.s.heap.toGraph z x → w.s.on z = true)
    (hret : (w.act boom (.assign x f)).2 = none) (hn : Anc w.s.heap.toGraph n x) (hne : n ≠ x) :
    (w.act boom (.assign x f)).1.Current n ∧ (w.act boom (.assign x f)).1.OptCurrent n := by
  have hr := hw.reach
  obtain ⟨L, ha⟩ := above_exists hr x
  obtain ⟨h1, -, h3⟩ := write_updates_ancestors hr ok.1 ok.2.1 ha hon
  have hv : (w.act boom (.assign x f)).1.val = f := (act_s (boom := boom) hr (.assign x f)).2
  have h2 := (perform_ok (w := { w with val := f }) (l := w.s.write x) hret).1 n (by rw [h1, h3]; exact ⟨hn, hne⟩)
  have h4 : (w.act boom (.assign x f)).1.seen n = f := h2.1
  have h5 : (w.act boom (.assign x f)).1.copy n = none := h2.2
  refine ⟨fun y k _ _ _ => by rw [h4, hv], fun y k _ _ _ => ?_⟩
  unfold optArray
  rw [h5]; rfl

/-- Calls that update the whole hierarchy of `r`. -/
def Whole (r : Id) : Deed V → Prop
  | .assign _ _ => False
  | .assignAll m _ => m = r
  | .optimizer m _ => m = r
  | .randomize m _ => m = r
  | .trigger x _ => x = r
  | .switch x b => x = r ∧ b = true
  | .read _ => False

theorem told_root {s : State T} (hr : Reach s) {r n : Id} (hx : r < s.heap.next) (hi : s.heap.inInit r = false)
    (hroot : s.heap.parent r = none) (tp : Bool) (hon : ∀ z, Anc s.heap.toGraph r z → s.on z = true)
    (hl : s.heap.leaf n = false) (hn : Awake s.heap r n) : n ∈ changedOf (s.triggerUpdate r tp) := by
  obtain ⟨D, h1, -, h3, -⟩ := trigger_update_spec hr hx (.root hroot) hi tp (hon r .refl) (by simp)
  rw [h1, List.mem_append]
  exact .inl ((h3 n).mpr ⟨hl, hon n hn.anc, hn⟩)

/-- Such a call on the root of a hierarchy that returns brings every object that is not fixed up to date,
whatever had been raised (or had happened while updates were off) before. -/
theorem recovered {boom : Boom V} {w : Site T V} (hw : Past boom w) {r : Id} {d : Deed V} (ok : d.OK w.s w.val)
    (hd : Whole r d) (hroot : w.s.heap.parent r = none) (hi : w.s.heap.inInit r = false)
    (hon : d = .switch r true ∨ ∀ z, Anc w.s.heap.toGraph r z → w.s.on z = true)
    (hret : (w.act boom d).2 = none) {n : Id} (hn : Anc w.s.heap.toGraph r n)
    (hl : w.s.heap.leaf n = false) (hf : w.s.heap.isFixed n = false) :
    (w.act boom d).1.Current n ∧ (w.act boom d).1.OptCurrent n := by
  have hr := hw.reach
  have i := hr.inv
  have haw := awake_of_not_fixed i.toWired hn hf
  have hv := (act_s (boom := boom) hr d).2
  have he := act_plan (boom := boom) hr d
  have hin : n ∈ changedOf (w.plan d).2 := by
    cases d with
    | assign x f => exact hd.elim
    | assignAll m f =>
      obtain rfl : m = r := hd
      exact told_root hr ok.1 hi hroot true (hon.resolve_left (fun h => by cases h)) hl haw
    | optimizer m f =>
      obtain rfl : m = r := hd
      exact told_root hr ok.1 hi hroot true (hon.resolve_left (fun h => by cases h)) hl haw
    | randomize m f =>
      obtain rfl : m = r := hd
      have hon' := hon.resolve_left (fun h => by cases h)
      have hh : w.s.heap.toGraph.highest m = m := i.skel.highest_eq hroot .refl
      show n ∈ changedOf (randomizeCalls w.s m).2
      rw [(randomize_on hr ok.1 (by rw [hh]; exact hon')).2]
      exact told_root hr ok.1 hi hroot true hon' hl haw
    | trigger x tp =>
      obtain rfl : x = r := hd
      exact told_root hr ok hi hroot tp (hon.resolve_left (fun h => by cases h)) hl haw
    | switch x b =>
      obtain ⟨rfl, rfl⟩ : x = r ∧ b = true := hd
      exact ((update_on_root hr ok hroot hi).2.2.1 n).mpr ⟨hl, haw⟩
    | read x => exact hd.elim
  rw [he] at hret
  have h1 := (perform_ok hret).1 n hin
  rw [← he, (plan_heap w d).2.2.1] at h1
  refine ⟨fun y k _ _ _ => by rw [h1.1, hv], fun y k _ _ _ => ?_⟩
  unfold optArray
  rw [h1.2]; rfl

/-- `m.optimizer_array = v` for several `v`, exceptions ignored (model.py:238-243, 261-266, 274-279: failed
evaluations during optimisation). -/
def tried (boom : Boom V) (m : Id) : Site T V → List (Vals V) → Site T V
  | w, [] => w
  | w, f :: fs => tried boom m (w.setOpt boom m f).1 fs

/-- Sites that differ only in what a round `l` started by setting the optimiser's array of `m` renews. -/
structure Differ (m : Id) (l : List Call) (w w' : Site T V) : Prop where
  s : w'.s = w.s
  seen : ∀ n, n ∉ changedOf l → w'.seen n = w.seen n
  copy : ∀ n, n ∉ changedOf l → n ≠ m → w'.copy n = w.copy n

theorem tried_differ (boom : Boom V) (m : Id) (l : List Call) : ∀ (fs : List (Vals V)) (w : Site T V),
    w.s.triggerUpdate m true = l → Differ m l w (tried boom m w fs)
  | [], w, _ => ⟨rfl, fun _ _ => rfl, fun _ _ _ => rfl⟩
  | f :: fs, w, hl => by
    have hs : (w.setOpt boom m f).1.s = w.s := (perform_val boom _ _).2
    obtain ⟨A, B, h1, -, -, -, h5, -, h7⟩ := perform_spec boom (w.s.triggerUpdate m true)
      { w with val := f, copy := upd w.copy m none }
    obtain ⟨d1, d2, d3⟩ := tried_differ boom m l fs (w.setOpt boom m f).1 (by rw [hs]; exact hl)
    rw [hl] at h1
    have hA : ∀ n, n ∉ changedOf l → n ∉ changedOf A ∧ n ∉ changedOf (A ++ B.take 1) := by
      intro n hn
      rw [h1, changedOf_append, List.mem_append] at hn
      refine ⟨fun h => hn (.inl h), ?_⟩
      rw [changedOf_append, List.mem_append]
      rintro (h | h)
      · exact hn (.inl h)
      · refine hn (.inr ?_)
        unfold changedOf at h ⊢
        obtain ⟨c, hc, hcy⟩ := List.mem_filterMap.mp h
        exact List.mem_filterMap.mpr ⟨c, List.mem_of_mem_take hc, hcy⟩
    refine ⟨d1.trans hs, fun n hn => (d2 n hn).trans (h5 n (hA n hn).1), fun n hn hm => ?_⟩
    exact (d3 n hn hm).trans ((h7 n (hA n hn).2).trans (upd_ne _ _ hm))

/-- Failed attempts to set the optimiser's array leave no trace: once it can be set, everything — values,
what every object computed, the optimiser's arrays — is as if they had not been made. -/
theorem failed_attempts_no_trace (boom : Boom V) (w : Site T V) (m : Id) (fs : List (Vals V)) {f : Vals V}
    (hret : (w.act boom (.optimizer m f)).2 = none) :
    (tried boom m w fs).act boom (.optimizer m f) = w.act boom (.optimizer m f) := by
  obtain ⟨d1, d2, d3⟩ := tried_differ boom m _ fs w rfl
  have hret' : (perform boom { w with val := f, copy := upd w.copy m none } (w.s.triggerUpdate m true)).2 = none := hret
  have hret2 : (perform boom { tried boom m w fs with val := f, copy := upd (tried boom m w fs).copy m none }
      ((tried boom m w fs).s.triggerUpdate m true)).2 = none := by
    rw [perform_none_iff] at hret' ⊢
    rw [d1]; exact hret'
  show perform boom { tried boom m w fs with val := f, copy := upd (tried boom m w fs).copy m none }
      ((tried boom m w fs).s.triggerUpdate m true) =
    perform boom { w with val := f, copy := upd w.copy m none } (w.s.triggerUpdate m true)
  obtain ⟨a1, a2⟩ := perform_ok hret'
  obtain ⟨b1, b2⟩ := perform_ok hret2
  obtain ⟨v1, s1⟩ := perform_val boom (w.s.triggerUpdate m true) { w with val := f, copy := upd w.copy m none }
  obtain ⟨v2, s2⟩ := perform_val boom ((tried boom m w fs).s.triggerUpdate m true)
    { tried boom m w fs with val := f, copy := upd (tried boom m w fs).copy m none }
  generalize hp : perform boom { w with val := f, copy := upd w.copy m none } (w.s.triggerUpdate m true) = p at *
  generalize hq : perform boom { tried boom m w fs with val := f, copy := upd (tried boom m w fs).copy m none }
    ((tried boom m w fs).s.triggerUpdate m true) = q at *
  rw [d1] at b1 b2
  obtain ⟨⟨ps, pv, pn, pc⟩, pe⟩ := p
  obtain ⟨⟨qs, qv, qn, qc⟩, qe⟩ := q
  dsimp only at *
  subst v1 v2 hret' hret2 s2 s1
  have hn : qn = pn := by
    funext n
    by_cases h : n ∈ changedOf (w.s.triggerUpdate m true)
    · rw [(a1 n h).1, (b1 n h).1]
    · rw [(a2 n h).1, (b2 n h).1, d2 n h]
  have hc : qc = pc := by
    funext n
    by_cases h : n ∈ changedOf (w.s.triggerUpdate m true)
    · rw [(a1 n h).2, (b1 n h).2]
    · rw [(a2 n h).2, (b2 n h).2]
      by_cases hm : n = m
      · subst hm; rw [upd_same, upd_same]
      · rw [upd_ne _ _ hm, upd_ne _ _ hm, d3 n h hm]
  rw [hn, hc, d1]

/-- If `parameters_changed` of nothing but the root of a hierarchy ever raises (and no callback), the
optimiser's array of every object that is not fixed is never stale, and every such object but the root is
always up to date. Missing for the full claim: any other object may raise (`stale_array_fails`,
`still_behind_fails`). -/
theorem optimizer_current_partial {boom : Boom V} {w : Site T V} (hw : Lit boom w) {r : Id}
    (hroot : w.s.heap.parent r = none) (hb : ∀ c v, boom c v = true → c = .changed r) {n : Id}
    (hl : w.s.heap.leaf n = false) (hf : w.s.heap.isFixed n = false) :
    w.OptCurrent n ∧ (n ≠ r → w.Current n) := by
  induction hw with
  | start v h _ => exact ⟨fun _ _ _ _ _ => rfl, fun _ _ _ _ _ _ => rfl⟩
  | @step w d hw ok hne ih =>
    have hs := raise_keeps_updates_on hw ok hne
    rw [hs] at hroot hl hf
    obtain ⟨ih1, ih2⟩ := ih hroot hl hf
    have hr := hw.past.reach
    cases hret : (w.act boom d).2 with
    | none =>
      obtain ⟨h1, h2⟩ := returns_current hw ok hne hret hl hf
      exact ⟨h2 ih1, fun h => h1 (ih2 h)⟩
    | some c =>
      have hv := (act_s (boom := boom) hr d).2
      have he := act_plan (boom := boom) hr d
      have hpv := (plan_heap w d).2.2.1
      obtain ⟨A, B, h1, -, h3, h4, h5, h6, h7⟩ := perform_spec boom (w.plan d).2 (w.plan d).1
      rw [← he] at h3 h4 h5 h6 h7
      rcases h3 with ⟨h, -⟩ | ⟨c', B', rfl, hbc, -⟩
      · rw [h] at hret; cases hret
      · obtain rfl := hb _ _ hbc
        have hB := plan_round hr hw.on ok hne hroot h1
        have ht : (List.take 1 (Call.changed r :: B')) = [.changed r] := rfl
        rw [ht] at h6 h7
        have hall : ∀ n, n ∉ changedOf (A ++ [.changed r]) → n ∉ changedOf (w.plan d).2 := by
          intro n hn
          rw [changedOf_append] at hn
          rw [h1, changedOf_append, changedOf_cons, hB]
          exact hn
        have same : ∀ y k, Anc w.s.heap.toGraph n y → n ∉ changedOf (w.plan d).2 →
            d.vals w.val y k = w.val y k := by
          intro y k hy hn
          by_contra h
          exact hn (told_change hr hw.on ok hl hf hy h)
        refine ⟨fun y k hy hly hk => ?_, fun hnr y k hy hly hk => ?_⟩
        · rw [hs] at hy hly hk
          by_cases hn : n ∈ changedOf (A ++ [.changed r])
          · unfold optArray
            rw [h6 n hn]; rfl
          · have := plan_opt (same y k hy (hall n hn)) (ih1 y k hy hly hk)
            unfold optArray at this ⊢
            rw [h7 n hn, hv]
            rw [hpv] at this
            exact this
        · rw [hs] at hy hly hk
          rw [hv]
          by_cases hn : n ∈ changedOf A
          · rw [h4 n hn, hpv]
          · have hn' : n ∉ changedOf (A ++ [.changed r]) := by
              rw [changedOf_append, List.mem_append]
              rintro (h | h)
              · exact hn h
              · exact hnr (by simpa [changedOf] using h)
            rw [h5 n hn, (plan_heap w d).2.2.2, ih2 hnr y k hy hly hk, same y k hy (hall n hn')]

/-! ### Examples and failures -/

/-- `siblings` (root `0`, nodes `1` with `Param` `2` and `3` with `Param` `4`), all values `0`. -/
def calm : Site Nat Nat := ⟨siblings, fun _ _ => 0, fun _ _ _ => 0, fun _ => none⟩

/-- Node `1` cannot compute anything when its parameter is one. -/
def fussy : Boom Nat := fun c v => decide (c = .changed 1) && decide (v 2 0 = 1)

/-- The root cannot compute anything when the parameter of node `1` is one. -/
def fussyRoot : Boom Nat := fun c v => decide (c = .changed 0) && decide (v 2 0 = 1)

theorem runAll_on : ∀ (es : List (Ev T)) {s : State T}, (∀ z, s.on z = true) →
    (∀ e ∈ es, ∀ x, e ≠ .updateModel x false) → ∀ z, (runAll s es).1.on z = true
  | [], _, h, _ => h
  | e :: es, s, h, hb => runAll_on es (s := (exec s e).1) (exec_all_on h (hb e List.mem_cons_self))
      (fun e' he' => hb e' (List.mem_cons_of_mem _ he'))

theorem siblings_on : ∀ z, siblings.on z = true := by
  refine runAll_on _ (fun _ => rfl) (fun e he x => ?_)
  obtain ⟨e', -, rfl⟩ := List.mem_map.mp he
  intro h; cases h

theorem calm_lit (boom : Boom Nat) : Lit boom calm := .start _ siblings_reach siblings_on

/-- `f` with the element of `Param` `x` set to `v`. -/
def put (f : Vals Nat) (x : Id) (v : Nat) : Vals Nat := fun y k => if y = x ∧ k = 0 then v else f y k

theorem put_ok {s : State Nat} {f : Vals Nat} {x v : Nat} (h1 : x < s.heap.next) (h2 : s.heap.leaf x = true)
    (h3 : 0 < s.heap.size x) : (Deed.assign x (put f x v)).OK s f := by
  refine ⟨h1, h2, fun y k h => ?_⟩
  have : y = x ∧ k = 0 := by
    by_contra hn
    exact h (if_neg hn)
  exact ⟨this.1, by rw [this.2]; exact h3⟩

/-- The root's array is read and the parameter of node `1` is set to one, which raises. -/
def broken (boom : Boom Nat) : Site Nat Nat :=
  ((calm.act boom (.read 0)).1.act boom (.assign 2 (put calm.val 2 1))).1

theorem act_read (boom : Boom V) (w : Site T V) (x : Id) :
    (w.act boom (.read x)).1.s = w.s ∧ (w.act boom (.read x)).1.val = w.val := ⟨rfl, rfl⟩

theorem calm_s : calm.s = siblings := by unfold calm; rfl

theorem read_lit (boom : Boom Nat) : Lit boom (calm.act boom (.read 0)).1 :=
  .step (calm_lit boom) (show (0 : Nat) < calm.s.heap.next by decide +kernel) (fun x h => by cases h)

theorem broken_lit (boom : Boom Nat) : Lit boom (broken boom) := by
  have h1 := read_lit boom
  obtain ⟨hs, hv⟩ := act_read boom calm 0
  rw [calm_s] at hs
  have ok : (Deed.assign 2 (put calm.val 2 1)).OK siblings calm.val :=
    put_ok (by decide +kernel) (by decide +kernel) (by decide +kernel)
  unfold broken
  generalize (calm.act boom (.read 0)).1 = w at h1 hs hv
  refine .step h1 ?_ (fun x h => by cases h)
  rw [hs, hv]
  exact ok

/-- `assign_raises` at work: the objects above `Param` `2` are `1` and `0`; `1` raises, or only `0` does. -/
example : Above calm.s.heap.toGraph 2 ([] ++ 1 :: [0]) ∧ fussy (.changed 1) (put calm.val 2 1) = true ∧
    (calm.act fussy (.assign 2 (put calm.val 2 1))).2 = some (.changed 1) ∧
    (calm.act fussyRoot (.assign 2 (put calm.val 2 1))).2 = some (.changed 0) ∧
    (calm.act fussyRoot (.assign 2 (put calm.val 2 1))).1.seen 1 2 0 = 1 ∧
    (calm.act fussyRoot (.assign 2 (put calm.val 2 1))).1.seen 0 2 0 = 0 :=
  ⟨.up (by decide +kernel) (.up (by decide +kernel) (.root (by decide +kernel))), by decide +kernel,
    by decide +kernel, by decide +kernel, by decide +kernel, by decide +kernel⟩

/-- `optimizer_current_partial`: after the root raised its array is that of the new value. -/
example : (broken fussyRoot).OptCurrent 0 ∧ (broken fussyRoot).val 2 0 = 1 ∧ (broken fussyRoot).optArray 0 2 0 = 1 :=
  ⟨(optimizer_current_partial (broken_lit fussyRoot) (r := 0) (by decide +kernel)
      (fun c v h => by simp only [fussyRoot, Bool.and_eq_true, decide_eq_true_eq] at h; exact h.1)
      (by decide +kernel) (by decide +kernel)).1, by decide +kernel, by decide +kernel⟩

/-- `retry_current`, `recovered` and `failed_attempts_no_trace` at work: the value is set to two, by
assignment and through the optimiser's array. -/
example : ((broken fussy).act fussy (.assign 2 (put calm.val 2 2))).2 = none ∧
    ((broken fussy).act fussy (.assign 2 (put calm.val 2 2))).1.seen 1 2 0 = 2 ∧
    ((broken fussy).act fussy (.optimizer 0 (put calm.val 2 2))).2 = none ∧
    ((broken fussy).act fussy (.optimizer 0 (put calm.val 2 2))).1.seen 0 2 0 = 2 ∧
    (calm.setOpt fussy 0 (put calm.val 2 1)).2 = some (.changed 1) ∧
    (calm.act fussy (.optimizer 0 (put calm.val 2 2))).2 = none ∧
    (broken fussy).s.heap.parent 0 = none ∧ (broken fussy).s.heap.inInit 0 = false ∧
    (broken fussy).s.heap.isFixed 1 = false := by decide +kernel

/-- Node `1` raised, so the root was not told: its `optimizer_array` still has the value from before the
assignment. `m.optimizer_array = m.optimizer_array` therefore takes the assignment back. -/
theorem stale_array_fails :
    Lit fussy (broken fussy) ∧ (broken fussy).val 2 0 = 1 ∧ (broken fussy).optArray 0 2 0 = 0 ∧
    ¬ (broken fussy).OptCurrent 0 ∧
    (Deed.optimizer 0 ((broken fussy).optArray 0)).OK (broken fussy).s (broken fussy).val ∧
    ((broken fussy).act fussy (.optimizer 0 ((broken fussy).optArray 0))).2 = none ∧
    ((broken fussy).act fussy (.optimizer 0 ((broken fussy).optArray 0))).1.val 2 0 = 0 := by
  have hanc : Anc (broken fussy).s.heap.toGraph 0 2 :=
    .step (p := 1) (.of_parent (by decide +kernel)) (by decide +kernel)
  have h0 : (broken fussy).optArray 0 2 0 = 0 := by decide +kernel
  have h1 : (broken fussy).val 2 0 = 1 := by decide +kernel
  refine ⟨broken_lit fussy, h1, h0, fun h => ?_, ⟨by decide +kernel, by decide +kernel, fun y k h => ?_⟩,
    by decide +kernel, by decide +kernel⟩
  · have := h 2 0 hanc (by decide +kernel) (by decide +kernel)
    rw [h0, h1] at this
    cases this
  · have : y = 2 ∧ k = 0 := by
      by_contra hn
      refine h ?_
      show (0 : Nat) = put (fun _ _ => 0) 2 1 y k
      exact (if_neg hn).symm
    obtain ⟨rfl, rfl⟩ := this
    exact ⟨hanc, by decide +kernel, by decide +kernel, by decide +kernel⟩

/-- Then another parameter is assigned, without exception: the root is up to date again, node `1` is still
behind. -/
theorem still_behind_fails :
    let w := ((broken fussy).act fussy (.assign 4 (put (broken fussy).val 4 1))).1
    Lit fussy w ∧ ((broken fussy).act fussy (.assign 4 (put (broken fussy).val 4 1))).2 = none ∧
    w.s.heap.isFixed 1 = false ∧ w.val 2 0 = 1 ∧ w.seen 0 2 0 = 1 ∧ w.seen 1 2 0 = 0 ∧ ¬ w.Current 1 := by
  have h0 : ((broken fussy).act fussy (.assign 4 (put (broken fussy).val 4 1))).1.seen 1 2 0 = 0 := by
    decide +kernel
  have h1 : ((broken fussy).act fussy (.assign 4 (put (broken fussy).val 4 1))).1.val 2 0 = 1 := by
    decide +kernel
  refine ⟨.step (broken_lit fussy) (put_ok (by decide +kernel) (by decide +kernel) (by decide +kernel))
      (fun x h => by cases h), by decide +kernel, by decide +kernel, h1, by decide +kernel, h0, fun h => ?_⟩
  have := h 2 0 (.of_parent (by decide +kernel)) (by decide +kernel) (by decide +kernel)
  rw [h0, h1] at this
  cases this

/-- `siblings` with `Param` `2` fixed. -/
def fixedOne : State Nat := (exec siblings (.hier (.fix ⟨2, none⟩))).1

/-- The parameter of node `1` is fixed; assigning to it raises. An update of the whole hierarchy leaves out
what is fixed and so returns, with node `1` still behind. -/
theorem fixed_behind_fails :
    let w0 : Site Nat Nat := ⟨fixedOne, fun _ _ => 0, fun _ _ _ => 0, fun _ => none⟩
    let w := (w0.act fussy (.assign 2 (put w0.val 2 1))).1
    Lit fussy w ∧ (w0.act fussy (.assign 2 (put w0.val 2 1))).2 = some (.changed 1) ∧
    (w.act fussy (.trigger 0 true)).2 = none ∧ (w.act fussy (.trigger 0 true)).1.val 2 0 = 1 ∧
    (w.act fussy (.trigger 0 true)).1.seen 1 2 0 = 0 := by
  have hr : Reach fixedOne := .step siblings_reach (admissibleB_sound siblings_reach.inv (by decide +kernel))
  have hon : ∀ z, fixedOne.on z = true := exec_all_on siblings_on (fun x h => by cases h)
  refine ⟨.step (.start _ hr hon) (put_ok (by decide +kernel) (by decide +kernel) (by decide +kernel))
      (fun x h => by cases h), by decide +kernel, by decide +kernel, by decide +kernel, by decide +kernel⟩

end Site
end Paramz.Notify

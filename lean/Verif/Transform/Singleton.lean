import Mathlib.Data.List.Sort

/-!
# Construction of transformation objects (`Transformation.__new__`, `Logistic.__new__`) and C21
-/

set_option linter.unusedSectionVars false

namespace Paramz.Singleton

variable {C B : Type} [DecidableEq C] [LinearOrder B]

/-- Exceptions of a construction. -/
inductive Err | assertion | attribute
  deriving DecidableEq, Repr

/-- What the class objects and the registry of weak references hold. Singleton objects are numbered
separately from `Logistic` objects.
* `slot c`: the attribute `_instance` in the dictionary of class `c` itself (transformations.py:55, 58);
* `cls n`: the class of singleton object `n`;
* `reg`: `Logistic._instances` (186), by object number;
* `attrs n`: `(lower, upper)` of `Logistic` object `n` once `__init__` has run;
* `alive n`: whether `Logistic` object `n` still exists (only weak references keep it in `reg`). -/
structure St (C B : Type) where
  slot : C → Option Nat
  cls : Nat → Option C
  nextS : Nat
  reg : List Nat
  attrs : Nat → Option (B × B)
  alive : Nat → Bool
  nextL : Nat

/-- After importing a module that defines classes but has built no object. (`NegativeLogexp.logexp`
builds one while the module is imported, transformations.py:146; such a construction is simply the first
event of a history.) -/
def init : St C B :=
  { slot := fun _ => none, cls := fun _ => none, nextS := 0, reg := [], attrs := fun _ => none,
    alive := fun _ => false, nextL := 0 }

/-- `Transformation.__new__` (transformations.py:56-59). `mro c` is the method resolution order of `c`:
`cls._instance` is the first `_instance` found along it (the one of `Transformation` itself is `None`). -/
def new (mro : C → List C) (s : St C B) (c : C) : Nat × St C B :=
  match (mro c).findSome? s.slot with
  | some o => if s.cls o = some c then (o, s) else
      (s.nextS, { s with slot := fun d => if d = c then some s.nextS else s.slot d,
                         cls := fun n => if n = s.nextS then some c else s.cls n, nextS := s.nextS + 1 })
  | none =>
      (s.nextS, { s with slot := fun d => if d = c then some s.nextS else s.slot d,
                         cls := fun n => if n = s.nextS then some c else s.cls n, nextS := s.nextS + 1 })

/-- The loop over the registry (190-192): comparing `instance().lower` raises when the object never
got its attributes. -/
def scan (attrs : Nat → Option (B × B)) (l u : B) : List Nat → Except Err (Option Nat)
  | [] => .ok none
  | n :: r =>
    match attrs n with
    | none => .error .attribute
    | some (a, b) => if a = l ∧ b = u then .ok (some n) else scan attrs l u r

/-- `Logistic.__new__` (187-199), then `Logistic.__init__` (200-203). -/
def logistic (s : St C B) (l u : B) : Except Err Nat × St C B :=
  let s := { s with reg := s.reg.filter s.alive }
  match scan s.attrs l u s.reg with
  | .error e => (.error e, s)
  | .ok (some n) =>
    if l < u then (.ok n, { s with attrs := fun i => if i = n then some (l, u) else s.attrs i })
    else (.error .assertion, s)
  | .ok none =>
    let n := s.nextL
    let s := { s with reg := s.reg ++ [n], alive := fun i => if i = n then true else s.alive i,
                      attrs := fun i => if i = n then none else s.attrs i, nextL := n + 1 }
    if l < u then (.ok n, { s with attrs := fun i => if i = n then some (l, u) else s.attrs i })
    else (.error .assertion, s)

/-- What can happen: building objects and garbage collection of `Logistic` objects (a singleton is kept
by its class). -/
inductive Ev (C B : Type)
  | new (c : C)
  | logistic (l u : B)
  | die (n : Nat)

/-- Result of an event. -/
inductive Res
  | single (n : Nat) | logi (n : Nat) | error (e : Err) | nothing
  deriving DecidableEq

/-- One event. -/
def step (mro : C → List C) (s : St C B) : Ev C B → Res × St C B
  | .new c => let r := new mro s c; (.single r.1, r.2)
  | .logistic l u => match logistic s l u with
    | (.ok n, s) => (.logi n, s)
    | (.error e, s) => (.error e, s)
  | .die n => (.nothing, { s with alive := fun i => if i = n then false else s.alive i })

/-- A history: its results with the requests, and the final state. -/
def run (mro : C → List C) : St C B → List (Ev C B) → List (Ev C B × Res) × St C B
  | s, [] => ([], s)
  | s, e :: r =>
    let q := step mro s e
    let p := run mro q.2 r
    ((e, q.1) :: p.1, p.2)

/-! ### Proofs -/

structure Inv (s : St C B) (tr : List (Ev C B × Res)) : Prop where
  slot_cls : ∀ c n, s.slot c = some n → s.cls n = some c
  cls_lt : ∀ n c, s.cls n = some c → n < s.nextS
  single : ∀ c n, (Ev.new c, Res.single n) ∈ tr → s.slot c = some n
  only_new : ∀ e n, (e, Res.single n) ∈ tr → ∃ c, e = Ev.new c
  reg : ∀ n, s.alive n = true → n ∈ s.reg
  fresh : ∀ n, s.nextL ≤ n → s.alive n = false
  uniq : ∀ n m b, s.alive n = true → s.alive m = true → s.attrs n = some b → s.attrs m = some b → n = m
  made : ∀ l u n, (Ev.logistic l u, Res.logi n) ∈ tr → n < s.nextL ∧ s.attrs n = some (l, u)
  valid : ∀ n l u, s.attrs n = some (l, u) → l < u
  tried : ∀ n, s.alive n = true → s.attrs n = none → ∃ l u e, (Ev.logistic l u, Res.error e) ∈ tr ∧ ¬ l < u

theorem Inv.init : Inv (init : St C B) [] := by
  constructor <;> simp [Singleton.init]

theorem scan_some {attrs : Nat → Option (B × B)} {l u : B} {r : List Nat} {n : Nat}
    (h : scan attrs l u r = .ok (some n)) : n ∈ r ∧ attrs n = some (l, u) := by
  induction r with
  | nil => simp [scan] at h
  | cons m r ih =>
    simp only [scan] at h
    cases hm : attrs m with
    | none => simp [hm] at h
    | some p =>
      obtain ⟨a, b⟩ := p
      simp only [hm] at h
      split at h
      · rename_i hab; cases h; exact ⟨by simp, by rw [hm, hab.1, hab.2]⟩
      · obtain ⟨h1, h2⟩ := ih h; exact ⟨List.mem_cons_of_mem _ h1, h2⟩

theorem scan_none {attrs : Nat → Option (B × B)} {l u : B} {r : List Nat}
    (h : scan attrs l u r = .ok none) : ∀ n ∈ r, attrs n ≠ none ∧ attrs n ≠ some (l, u) := by
  induction r with
  | nil => simp
  | cons m r ih =>
    simp only [scan] at h
    cases hm : attrs m with
    | none => simp [hm] at h
    | some p =>
      obtain ⟨a, b⟩ := p
      simp only [hm] at h
      split at h
      · cases h
      · rename_i hab
        intro n hn
        rcases List.mem_cons.mp hn with rfl | hn
        · refine ⟨by simp [hm], ?_⟩
          rw [hm]
          intro he
          simp only [Option.some.injEq, Prod.mk.injEq] at he
          exact hab he
        · exact ih h n hn

theorem scan_error {attrs : Nat → Option (B × B)} {l u : B} {r : List Nat} {e : Err}
    (h : scan attrs l u r = .error e) : ∃ n ∈ r, attrs n = none := by
  induction r with
  | nil => simp [scan] at h
  | cons m r ih =>
    simp only [scan] at h
    cases hm : attrs m with
    | none => exact ⟨m, by simp, hm⟩
    | some p =>
      obtain ⟨a, b⟩ := p
      simp only [hm] at h
      split at h
      · cases h
      · obtain ⟨n, hn, h1⟩ := ih h; exact ⟨n, List.mem_cons_of_mem _ hn, h1⟩

theorem mem_snoc {A : Type} {x y : A} {l : List A} : x ∈ l ++ [y] ↔ x ∈ l ∨ x = y := by simp

theorem Inv.new {mro : C → List C} (hm : ∀ c, ∃ r, mro c = c :: r) {s : St C B}
    {tr : List (Ev C B × Res)} (h : Inv s tr) (c : C) :
    Inv (step mro s (.new c)).2 (tr ++ [(.new c, (step mro s (.new c)).1)]) := by
  have create : ∀ o : Option Nat, (s.slot c = none) →
      Inv { s with slot := fun d => if d = c then some s.nextS else s.slot d,
                   cls := fun n => if n = s.nextS then some c else s.cls n, nextS := s.nextS + 1 }
        (tr ++ [(.new c, .single s.nextS)]) := by
    intro _ hs
    refine ⟨?_, ?_, ?_, ?_, h.reg, h.fresh, h.uniq, ?_, h.valid, ?_⟩
    · intro d n hd
      simp only at hd ⊢
      split at hd
      · rename_i hdc; cases hd; rw [if_pos rfl, hdc]
      · have := h.slot_cls d n hd
        rw [if_neg (by have := h.cls_lt n d this; omega)]; exact this
    · intro n d hn
      simp only at hn ⊢
      split at hn
      · omega
      · have := h.cls_lt n d hn; omega
    · intro d n hd
      rcases mem_snoc.mp hd with hd | hd
      · have := h.single d n hd
        simp only
        rw [if_neg]
        · exact this
        · rintro rfl; rw [hs] at this; cases this
      · cases hd; simp
    · intro e n he
      rcases mem_snoc.mp he with he | he
      · exact h.only_new e n he
      · cases he; exact ⟨c, rfl⟩
    · intro l u n hn
      rcases mem_snoc.mp hn with hn | hn
      · exact h.made l u n hn
      · cases hn
    · intro n ha hn
      obtain ⟨l, u, e, h1, h2⟩ := h.tried n ha hn
      exact ⟨l, u, e, List.mem_append_left _ h1, h2⟩
  obtain ⟨r, hr⟩ := hm c
  simp only [step, Singleton.new]
  cases hsl : s.slot c with
  | some o =>
    have hf : (mro c).findSome? s.slot = some o := by rw [hr, List.findSome?_cons, hsl]
    have hc := h.slot_cls c o hsl
    simp only [hf, hc, if_true]
    refine ⟨h.slot_cls, h.cls_lt, ?_, ?_, h.reg, h.fresh, h.uniq, ?_, h.valid, ?_⟩
    · intro d n hd
      rcases mem_snoc.mp hd with hd | hd
      · exact h.single d n hd
      · cases hd; exact hsl
    · intro e n he
      rcases mem_snoc.mp he with he | he
      · exact h.only_new e n he
      · cases he; exact ⟨c, rfl⟩
    · intro l u n hn
      rcases mem_snoc.mp hn with hn | hn
      · exact h.made l u n hn
      · cases hn
    · intro n ha hn
      obtain ⟨l, u, e, h1, h2⟩ := h.tried n ha hn
      exact ⟨l, u, e, List.mem_append_left _ h1, h2⟩
  | none =>
    cases hf : (mro c).findSome? s.slot with
    | none => exact create none hsl
    | some o =>
      have hne : s.cls o ≠ some c := by
        intro ho
        obtain ⟨d, hd, hdo⟩ := List.exists_of_findSome?_eq_some hf
        have := h.slot_cls d o hdo
        rw [ho] at this
        cases this
        rw [hsl] at hdo; cases hdo
      simp only [if_neg hne]
      exact create none hsl

theorem Inv.logistic {mro : C → List C} {s : St C B}
    {tr : List (Ev C B × Res)} (h : Inv s tr) (l u : B) :
    Inv (step mro s (.logistic l u)).2 (tr ++ [(.logistic l u, (step mro s (.logistic l u)).1)]) := by
  have hsingle : ∀ (r : Res), (∀ n, r ≠ .single n) →
      (∀ c n, (Ev.new c, Res.single n) ∈ tr ++ [(Ev.logistic l u, r)] → s.slot c = some n) ∧
      (∀ e n, (e, Res.single n) ∈ tr ++ [(Ev.logistic l u, r)] → ∃ c, e = Ev.new c) := by
    intro r hr
    constructor
    · intro c n hc
      rcases mem_snoc.mp hc with hc | hc
      · exact h.single c n hc
      · cases hc
    · intro e n he
      rcases mem_snoc.mp he with he | he
      · exact h.only_new e n he
      · simp only [Prod.mk.injEq] at he; exact absurd he.2.symm (hr n)
  have hregf : ∀ n, s.alive n = true → n ∈ s.reg.filter s.alive :=
    fun n hn => List.mem_filter.mpr ⟨h.reg n hn, hn⟩
  have hold : ∀ (r : Res) n, s.alive n = true → s.attrs n = none →
      ∃ l' u' e, (Ev.logistic l' u', Res.error e) ∈ tr ++ [(Ev.logistic l u, r)] ∧ ¬ l' < u' := by
    intro r n ha hn
    obtain ⟨l', u', e, h1, h2⟩ := h.tried n ha hn
    exact ⟨l', u', e, List.mem_append_left _ h1, h2⟩
  simp only [step, Singleton.logistic]
  cases hsc : scan s.attrs l u (s.reg.filter s.alive) with
  | error e =>
    simp only
    refine ⟨h.slot_cls, h.cls_lt, (hsingle (.error e) (by simp)).1, (hsingle (.error e) (by simp)).2, hregf,
      h.fresh, h.uniq, ?_, h.valid, hold _⟩
    intro l' u' n hn
    rcases mem_snoc.mp hn with hn | hn
    · exact h.made l' u' n hn
    · cases hn
  | ok o =>
    cases o with
    | some n =>
      obtain ⟨hin, hat⟩ := scan_some hsc
      simp only
      by_cases hlu : l < u
      · rw [if_pos hlu]
        have hsame : (fun i => if i = n then some (l, u) else s.attrs i) = s.attrs := by
          funext i; split
          · rename_i hi; rw [hi, hat]
          · rfl
        simp only [hsame]
        refine ⟨h.slot_cls, h.cls_lt, (hsingle (.logi n) (by simp)).1, (hsingle (.logi n) (by simp)).2,
          hregf, h.fresh, h.uniq, ?_, h.valid, hold _⟩
        intro l' u' m hn
        rcases mem_snoc.mp hn with hn | hn
        · exact h.made l' u' m hn
        · cases hn
          refine ⟨?_, hat⟩
          by_contra hc
          simp only [not_lt] at hc
          have := h.fresh n hc
          rw [(List.mem_filter.mp hin).2] at this; cases this
      · exact absurd (h.valid n l u hat) hlu
    | none =>
      have hno := scan_none hsc
      simp only
      by_cases hlu : l < u
      · rw [if_pos hlu]
        refine ⟨h.slot_cls, h.cls_lt, (hsingle (.logi _) (by simp)).1, (hsingle (.logi _) (by simp)).2,
          ?_, ?_, ?_, ?_, ?_, ?_⟩
        · intro n hn
          simp only at hn ⊢
          split at hn
          · rename_i hi; rw [hi]; simp
          · exact List.mem_append_left _ (hregf n hn)
        · intro n hn
          simp only at hn ⊢
          rw [if_neg (by omega)]; exact h.fresh n (by omega)
        · intro n m b hn hm hbn hbm
          simp only at hn hm hbn hbm
          by_cases h1 : n = s.nextL <;> by_cases h2 : m = s.nextL
          · rw [h1, h2]
          · rw [if_pos h1] at hbn
            rw [if_neg h2] at hm hbm
            rw [if_neg h2] at hbm
            rw [← hbn] at hbm
            exact absurd hbm (hno m (hregf m hm)).2
          · rw [if_pos h2] at hbm
            rw [if_neg h1] at hn hbn
            rw [if_neg h1] at hbn
            rw [← hbm] at hbn
            exact absurd hbn (hno n (hregf n hn)).2
          · rw [if_neg h1] at hn hbn
            rw [if_neg h2] at hm hbm
            rw [if_neg h1] at hbn
            rw [if_neg h2] at hbm
            exact h.uniq n m b hn hm hbn hbm
        · intro l' u' n hn
          rcases mem_snoc.mp hn with hn | hn
          · obtain ⟨h1, h2⟩ := h.made l' u' n hn
            simp only
            rw [if_neg (by omega), if_neg (by omega)]
            exact ⟨by omega, h2⟩
          · cases hn; simp
        · intro n a b hab
          simp only at hab
          split at hab
          · cases hab; exact hlu
          · rename_i hi
            exact h.valid n a b hab
        · intro n ha hn
          simp only at ha hn
          split at ha
          · rename_i hi; rw [if_pos hi] at hn; cases hn
          · rename_i hi; rw [if_neg hi, if_neg hi] at hn; exact hold _ n ha hn
      · rw [if_neg hlu]
        refine ⟨h.slot_cls, h.cls_lt, (hsingle (.error _) (by simp)).1, (hsingle (.error _) (by simp)).2,
          ?_, ?_, ?_, ?_, ?_, ?_⟩
        · intro n hn
          simp only at hn ⊢
          split at hn
          · rename_i hi; rw [hi]; simp
          · exact List.mem_append_left _ (hregf n hn)
        · intro n hn
          simp only at hn ⊢
          rw [if_neg (by omega)]; exact h.fresh n (by omega)
        · intro n m b hn hm hbn hbm
          simp only at hn hm hbn hbm
          by_cases h1 : n = s.nextL
          · rw [if_pos h1] at hbn; cases hbn
          by_cases h2 : m = s.nextL
          · rw [if_pos h2] at hbm; cases hbm
          rw [if_neg h1] at hn hbn
          rw [if_neg h2] at hm hbm
          exact h.uniq n m b hn hm hbn hbm
        · intro l' u' n hn
          rcases mem_snoc.mp hn with hn | hn
          · obtain ⟨h1, h2⟩ := h.made l' u' n hn
            simp only
            rw [if_neg (by omega)]
            exact ⟨by omega, h2⟩
          · cases hn
        · intro n a b hab
          simp only at hab
          split at hab
          · cases hab
          · exact h.valid n a b hab
        · intro n ha hn
          simp only at ha hn
          split at ha
          · exact ⟨l, u, _, by simp; exact Or.inr rfl, hlu⟩
          · rename_i hi; rw [if_neg hi] at hn; exact hold _ n ha hn

theorem Inv.die {mro : C → List C} {s : St C B} {tr : List (Ev C B × Res)} (h : Inv s tr) (n : Nat) :
    Inv (step mro s (.die n)).2 (tr ++ [(.die n, (step mro s (.die n)).1)]) := by
  have hal : ∀ m, (if m = n then false else s.alive m) = true → s.alive m = true := by
    intro m hm; split at hm
    · cases hm
    · exact hm
  simp only [step]
  refine ⟨h.slot_cls, h.cls_lt, ?_, ?_, fun m hm => h.reg m (hal m hm), ?_,
    fun a b c h1 h2 => h.uniq a b c (hal a h1) (hal b h2), ?_, h.valid, ?_⟩
  · intro c m hc
    rcases mem_snoc.mp hc with hc | hc
    · exact h.single c m hc
    · cases hc
  · intro e m he
    rcases mem_snoc.mp he with he | he
    · exact h.only_new e m he
    · cases he
  · intro m hm
    simp only
    split
    · rfl
    · exact h.fresh m hm
  · intro l u m hm
    rcases mem_snoc.mp hm with hm | hm
    · exact h.made l u m hm
    · cases hm
  · intro m ha hn
    obtain ⟨l, u, e, h1, h2⟩ := h.tried m (hal m ha) hn
    exact ⟨l, u, e, List.mem_append_left _ h1, h2⟩

theorem run_inv {mro : C → List C} (hm : ∀ c, ∃ r, mro c = c :: r) (evs : List (Ev C B)) :
    ∀ (s : St C B) (tr : List (Ev C B × Res)), Inv s tr →
      Inv (run mro s evs).2 (tr ++ (run mro s evs).1) := by
  induction evs with
  | nil => intro s tr h; simpa [run] using h
  | cons e r ih =>
    intro s tr h
    have h1 : Inv (step mro s e).2 (tr ++ [(e, (step mro s e).1)]) := by
      cases e with
      | new c => exact h.new hm c
      | logistic l u => exact h.logistic l u
      | die n => exact h.die n
    have := ih _ _ h1
    simpa [run] using this

/-! ### C21 -/

/-- C21: in every history, two constructions of parameterless transformation classes give the same
object exactly when the classes are the same, whatever the class hierarchy. -/
theorem one_object_per_class (mro : C → List C) (hm : ∀ c, ∃ r, mro c = c :: r) (evs : List (Ev C B))
    (c d : C) (n m : Nat) (hn : (Ev.new c, Res.single n) ∈ (run mro init evs).1)
    (hmm : (Ev.new d, Res.single m) ∈ (run mro init evs).1) : n = m ↔ c = d := by
  have h := run_inv hm evs init [] Inv.init
  rw [List.nil_append] at h
  have h1 := h.single c n hn
  have h2 := h.single d m hmm
  constructor
  · rintro rfl
    have := h.slot_cls c n h1
    rw [h.slot_cls d n h2] at this
    cases this; rfl
  · rintro rfl; rw [h1] at h2; cases h2; rfl

/-- C21: in every history, two `Logistic` objects that were built and are still alive are the same object
exactly when they were built with the same bounds. -/
theorem one_logistic_per_bounds (mro : C → List C) (hm : ∀ c, ∃ r, mro c = c :: r)
    (evs : List (Ev C B)) (l u l' u' : B) (n m : Nat)
    (hn : (Ev.logistic l u, Res.logi n) ∈ (run mro init evs).1)
    (hmm : (Ev.logistic l' u', Res.logi m) ∈ (run mro init evs).1)
    (an : (run mro init evs).2.alive n = true) (am : (run mro init evs).2.alive m = true) :
    n = m ↔ l = l' ∧ u = u' := by
  have h := run_inv hm evs init [] Inv.init
  rw [List.nil_append] at h
  have h1 := (h.made l u n hn).2
  have h2 := (h.made l' u' m hmm).2
  constructor
  · rintro rfl
    rw [h1] at h2; cases h2; exact ⟨rfl, rfl⟩
  · rintro ⟨rfl, rfl⟩
    exact h.uniq n m _ an am h1 h2

/-- C21: as long as no construction with reversed bounds was attempted, building with proper bounds always
succeeds. -/
theorem logistic_succeeds (mro : C → List C) (hm : ∀ c, ∃ r, mro c = c :: r) (evs : List (Ev C B))
    (hev : ∀ l u, Ev.logistic l u ∈ evs → l < u) (l u : B) (hlu : l < u) :
    ∃ n, (step mro (run mro init evs).2 (.logistic l u)).1 = .logi n := by
  have h := run_inv hm evs init [] Inv.init
  rw [List.nil_append] at h
  have hreq : ∀ (evs : List (Ev C B)) (s : St C B) e r, (e, r) ∈ (run mro s evs).1 → e ∈ evs := by
    intro evs
    induction evs with
    | nil => intro s e r he; simp [run] at he
    | cons x xs ih =>
      intro s e r he
      simp only [run, List.mem_cons] at he
      rcases he with he | he
      · cases he; simp
      · exact List.mem_cons_of_mem _ (ih _ e r he)
  generalize (run mro init evs).2 = s at h ⊢
  simp only [step, Singleton.logistic]
  cases hsc : scan s.attrs l u (s.reg.filter s.alive) with
  | error e =>
    obtain ⟨n, hn, ha⟩ := scan_error hsc
    obtain ⟨l', u', e', h1, h2⟩ := h.tried n (List.mem_filter.mp hn).2 ha
    exact absurd (hev _ _ (hreq _ _ _ _ h1)) h2
  | ok o => cases o <;> simp [hlu]

/-! Classes 0 `Exponent` and 1 `NegativeExponent`, a subclass of it. -/
def exMro : Nat → List Nat
  | 1 => [1, 0]
  | c => [c]

example : (run exMro (init : St Nat Nat) [.new 1, .new 0, .new 1, .logistic 0 5, .logistic 1 5,
    .logistic 0 5, .die 0, .logistic 0 5, .logistic 0 5]).1.map Prod.snd =
    [.single 0, .single 1, .single 0, .logi 0, .logi 1, .logi 0, .nothing, .logi 2, .logi 2] := by decide

/-- Unpickling a `Logistic` object: `Logistic.__new__(cls)` with the default bounds `d, d` (187), no
`__init__`, then the pickled attributes are stored in the object it returned. -/
def unpickle (s : St C B) (d l u : B) : Except Err Nat × St C B :=
  let s := { s with reg := s.reg.filter s.alive }
  match scan s.attrs d d s.reg with
  | .error e => (.error e, s)
  | .ok (some n) => (.ok n, { s with attrs := fun i => if i = n then some (l, u) else s.attrs i })
  | .ok none =>
    (.ok s.nextL, { s with
      reg := s.reg ++ [s.nextL]
      alive := fun i => if i = s.nextL then true else s.alive i
      attrs := fun i => if i = s.nextL then some (l, u) else s.attrs i
      nextL := s.nextL + 1 })

/-- C21 does not extend to unpickling: the loaded object is a second live object with the same bounds. -/
theorem unpickle_duplicates_fails :
    let s := (run exMro (init : St Nat Nat) [.logistic 0 5]).2
    let r := unpickle s 1 0 5
    r.1.toOption = some 1 ∧ r.2.alive 0 = true ∧ r.2.alive 1 = true ∧ r.2.attrs 0 = r.2.attrs 1 := by decide

/-- A failed construction whose half-built object is still referenced (for instance by the traceback)
makes later constructions fail with `AttributeError`. -/
theorem logistic_halfbuilt_fails :
    (run exMro (init : St Nat Nat) [.logistic 5 2, .logistic 0 1]).1.map Prod.snd =
      [.error .assertion, .error .attribute] := by decide

end Paramz.Singleton

import Verif.Cache.Switch

/-!
# Properties of the caching switches (C68)
-/

set_option linter.unusedSectionVars false

namespace Paramz.Switch

open Cache (Dict dget dset DNodup)
open Hier (Graph Id upd)
open Hier.Graph (Anc Skel)

variable {K : Type} [DecidableEq K]

/-- At every step of a history, `P` holds for the state and the call. -/
def Along (limit : Nat) (P : St K → Op K → Prop) (s : St K) : List (Op K) → Prop
  | [] => True
  | o :: l => P s o ∧ Along limit P (step limit s o) l

/-- The call does not switch `y` to `b`, neither directly nor from above. -/
def NotTo (b : Bool) (y : Id) (s : St K) (o : Op K) : Prop := ∀ x, o = .switch b x → ¬ Anc s.g x y

theorem run_good {limit : Nat} : ∀ (l : List (Op K)) {s : St K}, Good s → OkAll limit s l → Good (run limit s l)
  | [], _, h, _ => h
  | _ :: l, _, h, ok => run_good l (step_good h ok.1) ok.2

theorem run_next {limit : Nat} : ∀ (l : List (Op K)) {s : St K}, Good s → OkAll limit s l →
    s.g.next ≤ (run limit s l).g.next
  | [], _, _, _ => le_refl _
  | _ :: l, _, h, ok => le_trans (step_next h ok.1) (run_next l (step_good h ok.1) ok.2)

theorem run_on {limit : Nat} {b : Bool} {y : Id} : ∀ (l : List (Op K)) {s : St K}, Good s → OkAll limit s l →
    y < s.g.next → s.on y = b → Along limit (NotTo (!b) y) s l → (run limit s l).on y = b
  | [], _, _, _, _, hb, _ => hb
  | o :: l, s, h, ok, hy, hb, hq => by
    refine run_on l (step_good h ok.1) ok.2 (lt_of_lt_of_le hy (step_next h ok.1)) ?_ hq.2
    by_cases hx : ∃ x, o = .switch b x ∧ Anc s.g x y
    · obtain ⟨x, rfl, hx⟩ := hx
      exact (switch_spec h ok.1 b).2.2.2.2.2.1 y hx
    · rw [step_on h ok.1 hy]
      · exact hb
      · rintro b' x rfl ha
        by_cases e : b' = b
        · subst e; exact hx ⟨x, rfl, ha⟩
        · exact hq.1 x (by rw [Bool.eq_not.mpr e]) ha

/-- What a decorated call does depends on the switch of the object only. -/
theorem callDec_spec {limit : Nat} {s : St K} (h : Good s) {y : Id} (hy : y < s.g.next) (f : Nat) (k : K) :
    ∃ s1 : St K, Good s1 ∧ s1.on = s.on ∧ ∃ c, dget (s1.dict y) (.dec f) = some c ∧
      callDec limit s y f k = use limit s1 c k ∧ (s1.cell c).owner = y ∧ (s1.cell c).enabled = s.on y := by
  rw [callDec_eq]
  split
  · rename_i c hc
    obtain ⟨d1, d2, -⟩ := h.dec y f c (Cache.mem_of_dget hc)
    exact ⟨s, h, rfl, c, hc, rfl, d1, d2⟩
  · refine ⟨made s y f, made_inv h hy f, rfl, s.count, ?_, rfl, ?_, ?_⟩
    · show dget (upd s.dict y _ y) _ = _
      unfold upd
      rw [if_pos rfl, Cache.dget_dset, if_pos rfl]
    · show (upd s.cell s.count _ s.count).owner = y
      unfold upd; rw [if_pos rfl]
    · show (upd s.cell s.count _ s.count).enabled = s.on y
      unfold upd; rw [if_pos rfl]

/-! ### Decorated methods -/

/-- A call of a decorated method, if it runs the method at all, runs it on the object it was called on; in
particular for copies. -/
theorem runs_on_self {limit : Nat} {g : Graph} (hg : Skel g) (l : List (Op K)) (ok : OkAll limit (start g) l) {y : Id}
    (hy : y < (run limit (start g) l).g.next) (f : Nat) (k : K) :
    (callDec limit (run limit (start g) l) y f k).2 = none ∨ (callDec limit (run limit (start g) l) y f k).2 = some y := by
  obtain ⟨s1, -, -, c, -, e, ho, -⟩ := callDec_spec (limit := limit) (run_good l (start_inv hg) ok) hy f k
  rw [e]
  unfold use
  simp only
  rw [ho]
  split
  · exact Or.inr rfl
  · split
    · exact Or.inl rfl
    · exact Or.inr rfl

/-- After `x.disable_caching()`, until caching is switched on again at `y` or an object above it, every call of a
decorated method of an object `y` at or below `x` runs the method, whatever was stored before, and whatever else is called
(other cachers, changes of the hierarchy, copies). -/
theorem off_decorated {limit : Nat} {g : Graph} (hg : Skel g) (l l' : List (Op K)) (x y : Id)
    (ok : OkAll limit (start g) l) (hx : x < (run limit (start g) l).g.next) (hxy : Anc (run limit (start g) l).g x y)
    (ok' : OkAll limit (switch false (run limit (start g) l) x) l')
    (hq : Along limit (NotTo true y) (switch false (run limit (start g) l) x) l') (f : Nat) (k : K) :
    (callDec limit (run limit (switch false (run limit (start g) l) x) l') y f k).2 = some y := by
  have h := run_good l (start_inv hg) ok
  have hsw := switch_spec h hx false
  have hy : y < (switch false (run limit (start g) l) x).g.next := by
    rw [hsw.2.1]; exact h.skel.desc_lt hxy hx
  have hoff := run_on (b := false) l' hsw.1 ok' hy (hsw.2.2.2.2.2.1 y hxy) hq
  obtain ⟨s1, -, -, c, -, e, ho, he⟩ := callDec_spec (limit := limit) (run_good l' hsw.1 ok')
    (lt_of_lt_of_le hy (run_next l' hsw.1 ok')) f k
  rw [e]
  unfold use
  simp only
  rw [if_pos (he.trans hoff), ho]

theorem use_twice {limit : Nat} {s : St K} {c : Nat} (he : (s.cell c).enabled = true) (k : K) :
    (use limit (use limit s c k).1 c k).2 = none := by
  have hin : k ∈ ((use limit s c k).1.cell c).store := by
    unfold use
    simp only
    rw [if_neg (by rw [he]; simp)]
    split
    · assumption
    · show k ∈ (upd s.cell c _ c).store
      unfold upd
      rw [if_pos rfl]
      simp
  have he' : ((use limit s c k).1.cell c).enabled = true := ((use_same c k).2.2.2.2.2 c).1.trans he
  rw [use]
  simp only
  rw [if_neg (by rw [he']; simp), if_pos hin]

/-- After `x.enable_caching()`, until caching is switched off at `y` or an object above it, a call of a decorated
method of an object `y` at or below `x` that is repeated returns the stored result. -/
theorem on_decorated {limit : Nat} (_hl : 0 < limit) {g : Graph} (hg : Skel g) (l l' : List (Op K)) (x y : Id)
    (ok : OkAll limit (start g) l) (hx : x < (run limit (start g) l).g.next) (hxy : Anc (run limit (start g) l).g x y)
    (ok' : OkAll limit (switch true (run limit (start g) l) x) l')
    (hq : Along limit (NotTo false y) (switch true (run limit (start g) l) x) l') (f : Nat) (k : K) (s : St K)
    (hs : s = run limit (switch true (run limit (start g) l) x) l') :
    (callDec limit (callDec limit s y f k).1 y f k).2 = none := by
  have h := run_good l (start_inv hg) ok
  have hsw := switch_spec h hx true
  have hy : y < (switch true (run limit (start g) l) x).g.next := by
    rw [hsw.2.1]; exact h.skel.desc_lt hxy hx
  have hon := run_on (b := true) l' hsw.1 ok' hy (hsw.2.2.2.2.2.1 y hxy) hq
  rw [← hs] at hon
  obtain ⟨s1, -, -, c, hc, e, ho, he⟩ := callDec_spec (limit := limit) (s := s) (by rw [hs]; exact run_good l' hsw.1 ok')
    (by rw [hs]; exact lt_of_lt_of_le hy (run_next l' hsw.1 ok')) f k
  rw [e, callDec_eq, (use_same c k).2.2.1, hc]
  exact use_twice (he.trans hon) k

/-- Caching is on from the beginning. -/
theorem on_from_start {limit : Nat} (_hl : 0 < limit) {g : Graph} (hg : Skel g) (l : List (Op K)) (y : Id)
    (ok : OkAll limit (start g) l) (hy : y < g.next) (hq : Along limit (NotTo false y) (start g) l) (f : Nat) (k : K)
    (s : St K) (hs : s = run limit (start g) l) : (callDec limit (callDec limit s y f k).1 y f k).2 = none := by
  have h := run_good l (start_inv hg) ok
  have hon := run_on (b := true) l (start_inv hg) ok hy rfl hq
  rw [← hs] at hon
  obtain ⟨s1, -, -, c, hc, e, ho, he⟩ := callDec_spec (limit := limit) (s := s) (by rw [hs]; exact h)
    (by rw [hs]; exact lt_of_lt_of_le hy (run_next l (start_inv hg) ok)) f k
  rw [e, callDec_eq, (use_same c k).2.2.1, hc]
  exact use_twice (he.trans hon) k

/-! ### Cachers in attributes -/

/-- The attribute `h.a` holds the cacher that the cache of `y` knows for its method `f`. -/
def Registered (s : St K) (h : Id) (a : Nat) (y : Id) (f c : Nat) : Prop :=
  dget (s.held h) a = some c ∧ dget (s.dict y) (.bound f) = some c

/-- The call does not assign to `h.a`, makes no other cacher for the method `f` of `y`, and copies no object that
holds such a cacher. -/
def Undisturbed (h : Id) (a : Nat) (y : Id) (f : Nat) (s : St K) (o : Op K) : Prop :=
  (∀ h' a' o' f' en, o = .new h' a' o' f' en → ¬ (h' = h ∧ a' = a) ∧ ¬ (o' = y ∧ f' = f)) ∧
  (∀ ps g, o = .copy ps g → ∀ p ∈ ps, ∀ q ∈ s.held p.1, (s.cell q.2).owner ≠ y ∨ (s.cell q.2).fn ≠ f)

theorem new_registers (s : St K) (h : Id) (a : Nat) (y : Id) (f : Nat) (en : Bool) :
    Registered (new s h a y f en) h a y f s.count := by
  constructor
  · show dget (upd s.held h _ h) a = _
    unfold upd
    rw [if_pos rfl, Cache.dget_dset, if_pos rfl]
  · show dget (upd s.dict y _ y) _ = _
    unfold upd
    rw [if_pos rfl, Cache.dget_dset, if_pos rfl]

theorem step_registered {limit : Nat} {s : St K} (g : Good s) {o : Op K} (ok : Ok s o) {h : Id} {a : Nat} {y : Id} {f c : Nat}
    (hh : h < s.g.next) (hy : y < s.g.next) (r : Registered s h a y f c) (u : Undisturbed h a y f s o) :
    Registered (step limit s o) h a y f c := by
  cases o with
  | callDec x f' k =>
    show Registered (callDec limit s x f' k).1 h a y f c
    rw [callDec_eq]
    split
    · unfold Registered
      rw [(use_same _ _).2.2.1, (use_same _ _).2.2.2.1]
      exact r
    · unfold Registered
      rw [(use_same _ _).2.2.1, (use_same _ _).2.2.2.1]
      refine ⟨r.1, ?_⟩
      show dget (upd s.dict x _ y) _ = _
      unfold upd
      split
      · rename_i e; subst e; rw [Cache.dget_dset, if_neg (by simp)]; exact r.2
      · exact r.2
  | new h' a' o' f' en =>
    obtain ⟨u1, u2⟩ := u.1 h' a' o' f' en rfl
    constructor
    · show dget (upd s.held h' _ h) a = _
      unfold upd
      split
      · rename_i e
        subst e
        rw [Cache.dget_dset, if_neg (fun e => u1 ⟨rfl, e.symm⟩)]
        exact r.1
      · exact r.1
    · show dget (upd s.dict o' _ y) _ = _
      unfold upd
      split
      · rename_i e
        subst e
        rw [Cache.dget_dset, if_neg (fun e => u2 ⟨rfl, (Fn.bound.inj e).symm⟩)]
        exact r.2
      · exact r.2
  | callAttr h' a' k =>
    show Registered (callAttr limit s h' a' k).1 h a y f c
    unfold callAttr
    split
    · unfold Registered
      rw [(use_same _ _).2.2.1, (use_same _ _).2.2.2.1]
      exact r
    · exact r
  | switch b x =>
    unfold Registered
    show dget ((switch b s x).held h) a = _ ∧ dget ((switch b s x).dict y) _ = _
    rw [(switch_spec g ok b).2.2.1, (switch_spec g ok b).2.2.2.1]
    exact r
  | switchAttr b h' a' =>
    show Registered (match dget (s.held h') a' with
      | some c => { s with cell := upd s.cell c ((s.cell c).set b) }
      | none => s) h a y f c
    split <;> exact r
  | hier g => exact r
  | copy ps g' =>
    obtain ⟨-, i2, i3⟩ := copy_facts g ok
    refine ⟨?_, ?_⟩
    · show dget ((ps.foldl copyObj s).held h) a = _
      rw [i2.held h hh]; exact r.1
    · show dget ((ps.foldl copyObj s).dict y) _ = _
      rw [i3 y f hy (u.2 ps g' rfl)]; exact r.2

theorem run_registered {limit : Nat} {h : Id} {a : Nat} {y : Id} {f c : Nat} : ∀ (l : List (Op K)) {s : St K}, Good s →
    OkAll limit s l → h < s.g.next → y < s.g.next → Registered s h a y f c → Along limit (Undisturbed h a y f) s l →
    Registered (run limit s l) h a y f c
  | [], _, _, _, _, _, r, _ => r
  | _ :: l, _, g, ok, hh, hy, r, u =>
    run_registered l (step_good g ok.1) ok.2 (lt_of_lt_of_le hh (step_next g ok.1)) (lt_of_lt_of_le hy (step_next g ok.1))
      (step_registered g ok.1 hh hy r u.1) u.2

/-- The call does not switch the cacher in `h.a` to `b`. -/
def NotAttrTo (b : Bool) (h : Id) (a : Nat) (s : St K) (o : Op K) : Prop :=
  ∀ h' a', o = .switchAttr b h' a' → dget (s.held h') a' ≠ dget (s.held h) a

theorem step_enabled {limit : Nat} {s : St K} (g : Good s) {o : Op K} (ok : Ok s o) {b : Bool} {h : Id} {a : Nat} {y : Id} {f c : Nat}
    (r : Registered s h a y f c) (he : (s.cell c).enabled = b) (q : NotTo (!b) y s o) (q' : NotAttrTo (!b) h a s o) :
    ((step limit s o).cell c).enabled = b := by
  have hm := Cache.mem_of_dget r.2
  have hc := g.dlt _ _ _ hm
  cases o with
  | callDec x f' k =>
    show ((callDec limit s x f' k).1.cell c).enabled = b
    rw [callDec_eq]
    split
    · rw [((use_same _ _).2.2.2.2.2 c).1]; exact he
    · rw [((use_same _ _).2.2.2.2.2 c).1]
      show (upd s.cell s.count _ c).enabled = b
      unfold upd
      rw [if_neg (Nat.ne_of_lt hc)]
      exact he
  | new h' a' o' f' en =>
    show ((new s h' a' o' f' en).cell c).enabled = b
    rw [new_cell hc]; exact he
  | callAttr h' a' k =>
    show ((callAttr limit s h' a' k).1.cell c).enabled = b
    unfold callAttr
    split
    · rw [((use_same _ _).2.2.2.2.2 c).1]; exact he
    · exact he
  | switch b' x =>
    obtain ⟨-, -, -, -, -, -, -, -, s8, s9⟩ := switch_spec g ok b'
    by_cases hx : Anc s.g x y
    · have e : b' = b := by
        by_contra e
        exact q x (by rw [Bool.eq_not.mpr e]) hx
      exact (s8 y _ c hx hm).trans e
    · exact (s9 c (fun z k hz hk => hx (by rw [← (g.uniq _ _ _ _ _ hk hm).1]; exact hz))).trans he
  | switchAttr b' h' a' =>
    show ((match dget (s.held h') a' with
      | some c => { s with cell := upd s.cell c ((s.cell c).set b') }
      | none => s).cell c).enabled = b
    split
    · rename_i c' hc'
      show (upd s.cell c' _ c).enabled = b
      unfold upd
      split
      · rename_i e
        subst e
        rw [set_enabled]
        by_contra e
        exact q' h' a' (by rw [Bool.eq_not.mpr e]) (hc'.trans r.1.symm)
      · exact he
    · exact he
  | hier g => exact he
  | copy ps g' =>
    show ((ps.foldl copyObj s).cell c).enabled = b
    rw [(copy_facts g ok).2.1.cell c hc]; exact he

theorem run_enabled {limit : Nat} {b : Bool} {h : Id} {a : Nat} {y : Id} {f c : Nat} : ∀ (l : List (Op K)) {s : St K}, Good s →
    OkAll limit s l → h < s.g.next → y < s.g.next → Registered s h a y f c → (s.cell c).enabled = b →
    Along limit (Undisturbed h a y f) s l → Along limit (NotTo (!b) y) s l → Along limit (NotAttrTo (!b) h a) s l →
    ((run limit s l).cell c).enabled = b
  | [], _, _, _, _, _, _, he, _, _, _ => he
  | _ :: l, _, g, ok, hh, hy, r, he, u, q, q' =>
    run_enabled l (step_good g ok.1) ok.2 (lt_of_lt_of_le hh (step_next g ok.1)) (lt_of_lt_of_le hy (step_next g ok.1))
      (step_registered g ok.1 hh hy r u.1) (step_enabled g ok.1 r he q.1 q'.1) u.2 q.2 q'.2

/-- C68 (partial), cachers in attributes: after `h.a = Cacher(y.f)` and `x.disable_caching()` for an object `x` at or
above `y`, until caching is switched on again at `y`, an object above or at the cacher, every call `h.a(...)` runs
the method on `y`; if instead `x.enable_caching()` was called, repeated calls return the stored result. Missing:
the attribute must not have been replaced in the cache of `y` by another cacher for the method, which is also what
copying does; see `copied_attribute_fails`, `replaced_fails`. -/
theorem attribute_partial {limit : Nat} (_hl : 0 < limit) {g : Graph} (hg : Skel g) (l1 l2 l3 : List (Op K)) (h : Id) (a : Nat) (y : Id)
    (f : Nat) (en b : Bool) (x : Id) (s1 s2 s3 : St K)
    (ok1 : OkAll limit (start g) l1) (hnew : Ok (run limit (start g) l1) (.new h a y f en))
    (h1 : s1 = new (run limit (start g) l1) h a y f en)
    (ok2 : OkAll limit s1 l2) (u2 : Along limit (Undisturbed h a y f) s1 l2) (hx : x < (run limit s1 l2).g.next)
    (hxy : Anc (run limit s1 l2).g x y) (h2 : s2 = switch b (run limit s1 l2) x)
    (ok3 : OkAll limit s2 l3) (u3 : Along limit (Undisturbed h a y f) s2 l3)
    (q3 : Along limit (NotTo (!b) y) s2 l3) (q3' : Along limit (NotAttrTo (!b) h a) s2 l3) (h3 : s3 = run limit s2 l3) (k : K) :
    (b = false → (callAttr limit s3 h a k).2 = some y) ∧
    (b = true → (callAttr limit (callAttr limit s3 h a k).1 h a k).2 = none) := by
  have g0 := run_good l1 (start_inv hg) ok1
  have g1 : Good s1 := by rw [h1]; exact step_good (limit := limit) g0 hnew
  have n1 : s1.g.next = (run limit (start g) l1).g.next := by rw [h1]; rfl
  have hh1 : h < s1.g.next := by rw [n1]; exact hnew.1
  have hy1 : y < s1.g.next := by rw [n1]; exact hnew.2
  obtain ⟨c, r1⟩ : ∃ c, Registered s1 h a y f c := ⟨_, by rw [h1]; exact new_registers _ _ _ _ _ _⟩
  have g2 := run_good l2 g1 ok2
  have r2 := run_registered l2 g1 ok2 hh1 hy1 r1 u2
  have hh2 := lt_of_lt_of_le hh1 (run_next l2 g1 ok2)
  have hy2 := lt_of_lt_of_le hy1 (run_next l2 g1 ok2)
  obtain ⟨s1', s2', s3', s4', -, -, -, s7', s8', -⟩ := switch_spec g2 hx b
  rw [← h2] at s1' s2' s3' s4' s7' s8'
  have r3 : Registered s2 h a y f c := by unfold Registered; rw [s3', s4']; exact r2
  have he := s8' y _ c hxy (Cache.mem_of_dget r2.2)
  rw [← s2'] at hh2 hy2
  have he3 := run_enabled l3 s1' ok3 hh2 hy2 r3 he u3 q3 q3'
  have r4 := run_registered l3 s1' ok3 hh2 hy2 r3 u3
  have g3 := run_good l3 s1' ok3
  rw [← h3] at he3 r4 g3
  constructor
  · rintro rfl
    unfold callAttr
    rw [r4.1]
    show (use limit s3 c k).2 = _
    unfold use
    simp only
    rw [if_pos he3, (g3.bound y f c (Cache.mem_of_dget r4.2)).1]
  · rintro rfl
    have e : callAttr limit s3 h a k = use limit s3 c k := by unfold callAttr; rw [r4.1]
    rw [e]
    unfold callAttr
    rw [(use_same c k).2.2.2.1, r4.1]
    exact use_twice he3 k

/-- A cacher made while caching of the object is off, or with `cacher_enabled=False`, does not cache until it is
switched on. -/
theorem made_off {limit : Nat} {g : Graph} (hg : Skel g) (l l' : List (Op K)) (h : Id) (a : Nat) (y : Id)
    (f : Nat) (en : Bool) (s : St K) (ok : OkAll limit (start g) l) (hnew : Ok (run limit (start g) l) (.new h a y f en))
    (hoff : (run limit (start g) l).on y = false ∨ en = false) (hs : s = new (run limit (start g) l) h a y f en)
    (ok' : OkAll limit s l') (u : Along limit (Undisturbed h a y f) s l') (q : Along limit (NotTo true y) s l')
    (q' : Along limit (NotAttrTo true h a) s l') (k : K) : (callAttr limit (run limit s l') h a k).2 = some y := by
  have g0 := run_good l (start_inv hg) ok
  have g1 : Good s := by rw [hs]; exact step_good (limit := limit) g0 hnew
  have n1 : s.g.next = (run limit (start g) l).g.next := by rw [hs]; rfl
  have hh1 : h < s.g.next := by rw [n1]; exact hnew.1
  have hy1 : y < s.g.next := by rw [n1]; exact hnew.2
  obtain ⟨c, r1, he⟩ : ∃ c, Registered s h a y f c ∧ (s.cell c).enabled = false := by
    rw [hs]
    refine ⟨_, new_registers _ _ _ _ _ _, ?_⟩
    rw [new_cell']
    rcases hoff with h | h <;> simp [h]
  have he' := run_enabled l' g1 ok' hh1 hy1 r1 he u q q'
  have r2 := run_registered l' g1 ok' hh1 hy1 r1 u
  unfold callAttr
  rw [r2.1]
  show (use limit (run limit s l') c k).2 = _
  unfold use
  simp only
  rw [if_pos he', ((run_good l' g1 ok').bound y f c (Cache.mem_of_dget r2.2)).1]

/-- Switching off removes stored results: after switching on again, the next call of a decorated method runs it. -/
theorem off_clears {limit : Nat} {g : Graph} (hg : Skel g) (l l' : List (Op K)) (x y z : Id) (s : St K)
    (ok : OkAll limit (start g) l) (hx : x < (run limit (start g) l).g.next) (hxy : Anc (run limit (start g) l).g x y)
    (ok' : OkAll limit (switch false (run limit (start g) l) x) l')
    (hq : Along limit (NotTo true y) (switch false (run limit (start g) l) x) l')
    (hs : s = run limit (switch false (run limit (start g) l) x) l') (hz : z < s.g.next)
    (f : Nat) (k : K) : (callDec limit (switch true s z) y f k).2 = some y := by
  have h := run_good l (start_inv hg) ok
  have hsw := switch_spec h hx false
  have hy : y < (switch false (run limit (start g) l) x).g.next := by
    rw [hsw.2.1]; exact h.skel.desc_lt hxy hx
  have hoff := run_on (b := false) l' hsw.1 ok' hy (hsw.2.2.2.2.2.1 y hxy) hq
  have hg2 : Good s := by rw [hs]; exact run_good l' hsw.1 ok'
  have hy2 : y < s.g.next := by rw [hs]; exact lt_of_lt_of_le hy (run_next l' hsw.1 ok')
  rw [← hs] at hoff
  obtain ⟨t1, t2, t3, -, t5, t6, -, t7, t8, -⟩ := switch_spec hg2 hz true
  have hstore : ∀ (L : List Id) (s : St K) c, ((L.foldl (setObj true) s).cell c).store = (s.cell c).store := by
    intro L
    induction L with
    | nil => intro s c; rfl
    | cons w L ih =>
      intro s c
      rw [List.foldl_cons, ih]
      show (if _ then _ else _ : Cch K).store = _
      split <;> rfl
  rw [callDec_eq, t3]
  split
  · rename_i c hc
    obtain ⟨d1, d2, -⟩ := hg2.dec y f c (Cache.mem_of_dget hc)
    have he : ((switch true s z).cell c).store = [] :=
      (hstore _ s c).trans (hg2.off c (d2.trans hoff))
    unfold use
    simp only
    rw [(t7 c).1, d1, he]
    split
    · rfl
    · rw [if_neg (by simp)]
  · have e : (made (switch true s z) y f).cell (switch true s z).count = ⟨y, f, (switch true s z).on y, []⟩ := if_pos rfl
    unfold use
    simp only
    rw [e]
    simp only
    split
    · rfl
    · rw [if_neg (by simp)]

/-! ### Cases and failures -/

/-- `n` objects without links. -/
def flat (n : Nat) : Graph := ⟨n, fun _ => false, fun _ => none, fun _ => 0, fun _ => [], fun _ => 0⟩

theorem flat_skel (n : Nat) : Skel (flat n) := by
  refine ⟨?_, ?_, ?_, ?_, ?_, ⟨fun _ => 0, ?_⟩⟩ <;> simp [flat]

/-- Object 1 linked below object 0. -/
def pair : Graph :=
  ⟨2, fun _ => false, fun c => if c = 1 then some 0 else none, fun _ => 0, fun p => if p = 0 then [1] else [], fun _ => 0⟩

theorem pair_skel : Skel pair := by
  refine ⟨?_, ?_, ?_, ?_, ?_, ⟨fun c => c, ?_⟩⟩
  · intro c p h
    simp only [pair] at h ⊢
    split at h
    · rename_i e
      cases h
      rw [e]
      decide
    · cases h
  · intro c p
    simp only [pair]
    by_cases h1 : c = 1 <;> by_cases h2 : p = 0 <;> simp [h1, h2]
    exact fun e => h2 e.symm
  · intro p; simp only [pair]; split <;> simp
  · intro p i c h
    simp only [pair] at h ⊢
    split at h
    · cases i <;> simp_all
    · simp at h
  · intro x h; simp [pair] at h
  · intro c p h
    simp only [pair] at h
    split at h <;> simp_all

/-- A case for `off_decorated`: object 1 below 0 has results stored, caching is switched off at 0, a copy is made, and
the object is taken out of the hierarchy. -/
example : (callDec 3 (run 3 (switch false (run 3 (start pair) [.callDec 1 7 5]) 0)
    [.callDec 1 7 5, .copy [(0, 2), (1, 3)] (flat 4), .callDec 3 7 5]) 1 7 5).2 = some 1 := by
  have ok : OkAll 3 (start pair : St Nat) [.callDec 1 7 5] := ⟨(by decide : 1 < 2), trivial⟩
  have ok' : OkAll 3 (switch false (run 3 (start pair : St Nat) [.callDec 1 7 5]) 0)
      [.callDec 1 7 5, .copy [(0, 2), (1, 3)] (flat 4), .callDec 3 7 5] := by
    refine ⟨(by decide : 1 < 2), ⟨flat_skel 4, ?_, ?_⟩, (by decide : 3 < 4), trivial⟩ <;> decide
  refine off_decorated pair_skel _ _ 0 1 ok ?_ (.step .refl ?_) ok' ?_ 7 5
  · decide
  · decide
  · refine ⟨?_, ?_, ?_, trivial⟩ <;> intro x h <;> cases h

/-- A case for `attribute_partial`: a cacher of object 1, which is below object 0, with a stored result. -/
example : (callAttr 3 (run 3 (switch false (run 3 (new (start pair) 1 0 1 7 true) [.callAttr 1 0 5]) 0) [.callAttr 1 0 5]) 1 0 5).2
    = some 1 := by
  refine (attribute_partial (limit := 3) (by decide) pair_skel [] [.callAttr 1 0 5] [.callAttr 1 0 5] 1 0 1 7 true false 0 _ _ _
    trivial ⟨(by decide : 1 < 2), (by decide : 1 < 2)⟩ rfl ⟨trivial, trivial⟩ ⟨⟨?_, ?_⟩, trivial⟩ ?_ (.step .refl ?_) rfl
    ⟨trivial, trivial⟩ ⟨⟨?_, ?_⟩, trivial⟩ ⟨?_, trivial⟩ ⟨?_, trivial⟩ rfl 5).1 rfl
  · intro _ _ _ _ _ h; cases h
  · intro _ _ h; cases h
  · decide
  · decide
  · intro _ _ _ _ _ h; cases h
  · intro _ _ h; cases h
  · intro _ h; cases h
  · intro _ _ h; cases h

/-- A case for `on_from_start`, in a history that switches another object off. -/
example : (callDec 3 (callDec 3 (run 3 (start pair) [.switch false 1, .callDec 0 7 5]) 0 7 5).1 0 7 5).2 = none := by
  refine on_from_start (by decide) pair_skel [.switch false 1, .callDec 0 7 5] 0
    ⟨(by decide : 1 < 2), (by decide : 0 < 2), trivial⟩ (by decide) ⟨?_, ?_, trivial⟩ 7 5 _ rfl
  · intro x h
    cases h
    intro ha
    cases ha with
    | step _ hp => cases hp
  · intro x h; cases h

/-- The cacher in an attribute (as `Basis._basis`, ridge_regression.py:118) of a model that has been copied is not
switched off with the model: it returns a stored result. The cache of the original has the cacher of the copy in its
place. -/
theorem copied_attribute_fails : ∃ l : List (Op Nat), OkAll 3 (start (flat 1)) (.new 0 0 0 7 true :: l) ∧
    Along 3 (fun _ o => ∀ h a, o ≠ .new h a 0 7 true) (step 3 (start (flat 1)) (.new 0 0 0 7 true)) l ∧
    (callAttr 3 (callAttr 3 (switch false (run 3 (start (flat 1)) (.new 0 0 0 7 true :: l)) 0) 0 0 5).1 0 0 5).2 = none := by
  refine ⟨[.copy [(0, 1)] (flat 2)], ⟨⟨?_, ?_⟩, ⟨flat_skel 2, ?_, ?_⟩, trivial⟩, ⟨?_, trivial⟩, ?_⟩
  · decide
  · decide
  · decide
  · decide
  · intro h a e; cases e
  · decide

/-- The cacher in an attribute of a copy runs the method of the original. -/
theorem copy_runs_original_fails :
    let s := run 3 (start (flat 1)) [.new 0 0 0 7 true, .copy [(0, 1)] (flat 2)]
    OkAll 3 (start (flat 1) : St Nat) [.new 0 0 0 7 true, .copy [(0, 1)] (flat 2)] ∧
    (callAttr 3 s 1 0 (5 : Nat)).2 = some 0 := by
  refine ⟨⟨⟨?_, ?_⟩, ⟨flat_skel 2, ?_, ?_⟩, trivial⟩, ?_⟩ <;> decide

/-- Making a second cacher for a method, the first one is not switched off any more. -/
theorem replaced_fails :
    let s := switch false (run 3 (start (flat 1)) [.new 0 0 0 7 true, .new 0 1 0 7 true]) 0
    OkAll 3 (start (flat 1) : St Nat) [.new 0 0 0 7 true, .new 0 1 0 7 true] ∧
    (callAttr 3 (callAttr 3 s 0 0 (5 : Nat)).1 0 0 5).2 = none := by
  refine ⟨⟨⟨?_, ?_⟩, ⟨?_, ?_⟩, trivial⟩, ?_⟩ <;> decide

/-- A copy of a model with caching switched off caches. -/
theorem copy_forgets_fails :
    let s := run 3 (start (flat 1)) [.switch false 0, .copy [(0, 1)] (flat 2)]
    OkAll 3 (start (flat 1) : St Nat) [.switch false 0, .copy [(0, 1)] (flat 2)] ∧
    s.on 0 = false ∧ (callDec 3 (callDec 3 s 1 7 (5 : Nat)).1 1 7 5).2 = none := by
  refine ⟨⟨(by decide : 0 < 1), ⟨flat_skel 2, ?_, ?_⟩, trivial⟩, ?_, ?_⟩ <;> decide

/-- An object linked below a model with caching switched off caches. -/
theorem linked_later_fails :
    let s := run 3 (start (flat 2)) [.switch false 0, .hier pair]
    OkAll 3 (start (flat 2) : St Nat) [.switch false 0, .hier pair] ∧
    Anc s.g 0 1 ∧ s.on 0 = false ∧ (callDec 3 (callDec 3 s 1 7 (5 : Nat)).1 1 7 5).2 = none := by
  refine ⟨⟨(by decide : 0 < 2), ⟨pair_skel, ?_⟩, trivial⟩, .step .refl ?_, ?_, ?_⟩ <;> decide

/-- `enable_caching` also switches on cachers that were made with `cacher_enabled=False`. -/
theorem explicit_off_fails :
    let s := switch true (run 3 (start (flat 1)) [.new 0 0 0 7 false]) 0
    OkAll 3 (start (flat 1) : St Nat) [.new 0 0 0 7 false] ∧
    (callAttr 3 (callAttr 3 s 0 0 (5 : Nat)).1 0 0 5).2 = none := by
  refine ⟨⟨⟨?_, ?_⟩, trivial⟩, ?_⟩ <;> decide

end Paramz.Switch

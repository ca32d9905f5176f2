import Verif.Cache.Dict
import Verif.Hier.TravProps

/-!
# Switching caching on and off in a hierarchy (C68)

Source: `caching.py:241-287` (`FunctionCache`, `Cache_this`), the constructor, `__deepcopy__` and switches of
`Cacher` (caching.py:43-84, 225-226), `enable_caching`, `disable_caching` (parameter_core.py:416-424), and what
copies do with the cache (pickleable.py:97-128).

Simplified: arguments of calls are opaque keys that do not change (changes of arguments: C09-C14), so a cacher
keeps the keys it has results for. The result of a call is who computed it. An attribute that holds a cacher
does not share it with another attribute.
-/

set_option linter.unusedSectionVars false

namespace Paramz.Switch

open Cache (Dict dget dset DNodup)
open Hier (Graph Id upd)
open Hier.Graph (Anc Skel)

/-! ### Model -/

/-- Keys of the dictionary `obj.cache`: a decorated function, or a bound method of `obj`. -/
inductive Fn
  | dec (f : Nat)
  | bound (f : Nat)
  deriving DecidableEq

/-- A `Cacher`: the object its operation runs on (`operation.__self__`, or the first argument of a decorated
function), the function, `cacher_enabled`, and the calls it has results of, oldest first. -/
structure Cch (K : Type) where
  owner : Id
  fn : Nat
  enabled : Bool
  store : List K

/-- The hierarchy; per object `cache.caching_enabled`, the dictionary `cache`, and the attributes that hold
cachers; the cachers made so far. -/
structure St (K : Type) where
  g : Graph
  on : Id → Bool
  dict : Id → Dict Fn Nat
  held : Id → Dict Nat Nat
  cell : Nat → Cch K
  count : Nat

variable {K : Type} [DecidableEq K]

/-- `Cacher.__call__` (caching.py:149-192), with `limit` places (caching.py:101-132; at least one, without any the first call
raises: C09). `none`: a stored result was
returned; `some x`: the operation ran on `x`. -/
def use (limit : Nat) (s : St K) (c : Nat) (k : K) : St K × Option Id :=
  let e := s.cell c
  if e.enabled = false then (s, some e.owner)
  else if k ∈ e.store then (s, none)
  else
    let st := if e.store.length = limit then e.store.tail else e.store
    ({ s with cell := upd s.cell c { e with store := st ++ [k] } }, some e.owner)

/-- `x.f(k)` for a decorated method: `Cache_this` (caching.py:272-287). -/
def callDec (limit : Nat) (s : St K) (x : Id) (f : Nat) (k : K) : St K × Option Id :=
  match dget (s.dict x) (.dec f) with
  | some c => use limit s c k
  | none =>
    use limit { s with
      cell := upd s.cell s.count ⟨x, f, s.on x, []⟩
      dict := upd s.dict x (dset (s.dict x) (.dec f) s.count)
      count := s.count + 1 } s.count k

/-- `h.a = Cacher(o.f, cacher_enabled=en)` (caching.py:43-75). -/
def new (s : St K) (h : Id) (a : Nat) (o : Id) (f : Nat) (en : Bool) : St K :=
  { s with
    cell := upd s.cell s.count ⟨o, f, en && s.on o, []⟩
    dict := upd s.dict o (dset (s.dict o) (.bound f) s.count)
    held := upd s.held h (dset (s.held h) a s.count)
    count := s.count + 1 }

/-- `h.a(k)`; nothing if there is no such attribute. -/
def callAttr (limit : Nat) (s : St K) (h : Id) (a : Nat) (k : K) : St K × Option Id :=
  match dget (s.held h) a with
  | some c => use limit s c k
  | none => (s, none)

/-- `enable_cacher` and `disable_cacher` (caching.py:77-84). -/
def Cch.set (b : Bool) (e : Cch K) : Cch K := if b then { e with enabled := true } else { e with enabled := false, store := [] }

/-- `FunctionCache.enable_caching` and `disable_caching` (caching.py:246-256). -/
def setObj (b : Bool) (s : St K) (y : Id) : St K :=
  { s with
    on := upd s.on y b
    cell := fun c => if c ∈ (s.dict y).map Prod.snd then (s.cell c).set b else s.cell c }

/-- `enable_caching` and `disable_caching` of an object in a hierarchy (parameter_core.py:416-424). -/
def switch (b : Bool) (s : St K) (x : Id) : St K :=
  (s.g.traverse (fun _ _ => false) Hier.Graph.fresh x).trace.foldl (setObj b) s

/-- `Cacher.__deepcopy__` (caching.py:225-226) for an attribute of the copy `n`: the operation is still the bound
method of the original. -/
def recach (n : Id) (s : St K) (p : Nat × Nat) : St K :=
  let e := s.cell p.2
  new s n p.1 e.owner e.fn true

/-- The copy `n` of an object `o` (pickleable.py:97-128): a new cache, attributes are copied. -/
def copyObj (s : St K) (p : Id × Id) : St K :=
  (s.held p.1).foldl (recach p.2) { s with on := upd s.on p.2 true, dict := upd s.dict p.2 [], held := upd s.held p.2 [] }

/-- What happens to a model. `hier` is any change of the hierarchy (linking, unlinking, new objects); `copy` gives
the objects copied with their copies, and the hierarchy afterwards (C59). -/
inductive Op (K : Type)
  | callDec (x : Id) (f : Nat) (k : K)
  | new (h : Id) (a : Nat) (o : Id) (f : Nat) (en : Bool)
  | callAttr (h : Id) (a : Nat) (k : K)
  | switch (b : Bool) (x : Id)
  | switchAttr (b : Bool) (h : Id) (a : Nat)
  | hier (g : Graph)
  | copy (ps : List (Id × Id)) (g : Graph)

/-- One step. -/
def step (limit : Nat) (s : St K) : Op K → St K
  | .callDec x f k => (callDec limit s x f k).1
  | .new h a o f en => new s h a o f en
  | .callAttr h a k => (callAttr limit s h a k).1
  | .switch b x => switch b s x
  | .switchAttr b h a => match dget (s.held h) a with
    | some c => { s with cell := upd s.cell c ((s.cell c).set b) }
    | none => s
  | .hier g => { s with g := g }
  | .copy ps g => { ps.foldl copyObj s with g := g }

/-- Calls python can make: objects exist, copies are new objects. -/
def Ok (s : St K) : Op K → Prop
  | .callDec x _ _ => x < s.g.next
  | .new h _ o _ _ => h < s.g.next ∧ o < s.g.next
  | .switch _ x => x < s.g.next
  | .hier g => Skel g ∧ s.g.next ≤ g.next
  | .copy ps g => Skel g ∧ s.g.next ≤ g.next ∧ (∀ p ∈ ps, p.1 < s.g.next ∧ s.g.next ≤ p.2 ∧ p.2 < g.next)
  | _ => True

/-- A history. -/
def run (limit : Nat) (s : St K) (l : List (Op K)) : St K := l.foldl (step limit) s

/-- All calls of a history can be made. -/
def OkAll (limit : Nat) (s : St K) : List (Op K) → Prop
  | [] => True
  | o :: l => Ok s o ∧ OkAll limit (step limit s o) l

/-- A hierarchy in which nothing has been called. -/
def start (g : Graph) : St K := ⟨g, fun _ => true, fun _ => [], fun _ => [], fun _ => ⟨0, 0, true, []⟩, 0⟩

/-! ### Invariant -/

theorem mem_dset {A B : Type} [DecidableEq A] {d : Dict A B} {k k' : A} {v v' : B} (h : (k', v') ∈ dset d k v) :
    (k' = k ∧ v' = v) ∨ (k', v') ∈ d := by
  induction d with
  | nil => simp [dset] at h; exact Or.inl h
  | cons e d ih =>
    obtain ⟨j, w⟩ := e
    simp only [dset] at h
    split at h
    · rename_i hj
      subst hj
      rcases List.mem_cons.mp h with h | h
      · exact Or.inl ⟨congrArg Prod.fst h, congrArg Prod.snd h⟩
      · exact Or.inr (List.mem_cons_of_mem _ h)
    · rcases List.mem_cons.mp h with h | h
      · exact Or.inr (by rw [h]; exact List.mem_cons_self)
      · exact (ih h).imp id (List.mem_cons_of_mem _)

/-- What always holds. `N` are the copies being made. -/
structure Inv (N : Id → Prop) (s : St K) : Prop where
  skel : Skel s.g
  nodup : ∀ y, DNodup (s.dict y)
  dlt : ∀ y k c, (k, c) ∈ s.dict y → c < s.count
  hlt : ∀ h a c, (a, c) ∈ s.held h → c < s.count
  uniq : ∀ y k c y' k', (k, c) ∈ s.dict y → (k', c) ∈ s.dict y' → y = y' ∧ k = k'
  dec : ∀ y f c, (.dec f, c) ∈ s.dict y → (s.cell c).owner = y ∧ (s.cell c).enabled = s.on y ∧
    ∀ h a, (a, c) ∉ s.held h
  bound : ∀ y f c, (.bound f, c) ∈ s.dict y → (s.cell c).owner = y ∧ (s.cell c).fn = f
  off : ∀ c, (s.cell c).enabled = false → (s.cell c).store = []
  olt : ∀ c, c < s.count → (s.cell c).owner < s.g.next
  fresh : ∀ y, s.g.next ≤ y → s.on y = true ∧ s.dict y = [] ∧ (N y ∨ s.held y = [])

/-- Between calls. -/
abbrev Good (s : St K) : Prop := Inv (fun _ => False) s

variable {N : Id → Prop}

theorem start_inv {g : Graph} (h : Skel g) : Good (start g : St K) where
  skel := h
  nodup _ := List.nodup_nil
  dlt _ _ _ h := by cases h
  hlt _ _ _ h := by cases h
  uniq _ _ _ _ _ h := by cases h
  dec _ _ _ h := by cases h
  bound _ _ _ h := by cases h
  off _ h := by cases h
  olt _ h := by cases h
  fresh _ _ := ⟨rfl, rfl, Or.inr rfl⟩

/-- Changing a cacher without changing its owner, function and switch. -/
theorem Inv.cell {s : St K} (h : Inv N s) {cell : Nat → Cch K} (ho : ∀ c, (cell c).owner = (s.cell c).owner)
    (hf : ∀ c, (cell c).fn = (s.cell c).fn) (he : ∀ c, (cell c).enabled = (s.cell c).enabled)
    (hs : ∀ c, (cell c).enabled = false → (cell c).store = []) : Inv N { s with cell := cell } where
  skel := h.skel
  nodup := h.nodup
  dlt := h.dlt
  hlt := h.hlt
  uniq := h.uniq
  dec y f c hc := by
    obtain ⟨a, b, d⟩ := h.dec y f c hc
    exact ⟨(ho c).trans a, (he c).trans b, d⟩
  bound y f c hc := by
    obtain ⟨a, b⟩ := h.bound y f c hc
    exact ⟨(ho c).trans a, (hf c).trans b⟩
  off := hs
  olt c hc := by rw [show (cell c).owner = _ from ho c]; exact h.olt c hc
  fresh := h.fresh

theorem use_inv {limit : Nat} {s : St K} (h : Inv N s) (c : Nat) (k : K) : Inv N (use limit s c k).1 := by
  unfold use
  simp only
  split
  · exact h
  · rename_i he
    split
    · exact h
    · apply h.cell
      · intro c'; unfold upd; split <;> [rename_i e; skip] <;> [rw [e]; rfl]
      · intro c'; unfold upd; split <;> [rename_i e; skip] <;> [rw [e]; rfl]
      · intro c'; unfold upd; split <;> [rename_i e; skip] <;> [rw [e]; rfl]
      · intro c'
        unfold upd
        split
        · intro h'; exact absurd h' he
        · exact h.off c'

theorem use_same {limit : Nat} {s : St K} (c : Nat) (k : K) :
    (use limit s c k).1.g = s.g ∧ (use limit s c k).1.on = s.on ∧ (use limit s c k).1.dict = s.dict ∧
    (use limit s c k).1.held = s.held ∧ (use limit s c k).1.count = s.count ∧
    ∀ c', ((use limit s c k).1.cell c').enabled = (s.cell c').enabled ∧
      ((use limit s c k).1.cell c').owner = (s.cell c').owner ∧ ((use limit s c k).1.cell c').fn = (s.cell c').fn := by
  unfold use
  simp only
  split
  · simp
  · split
    · simp
    · refine ⟨rfl, rfl, rfl, rfl, rfl, fun c' => ?_⟩
      show (upd s.cell c _ c').enabled = _ ∧ (upd s.cell c _ c').owner = _ ∧ (upd s.cell c _ c').fn = _
      unfold upd
      split
      · rename_i e; rw [e]; exact ⟨rfl, rfl, rfl⟩
      · exact ⟨rfl, rfl, rfl⟩

/-- The state in which a decorated method has its cacher. -/
def made (s : St K) (x : Id) (f : Nat) : St K :=
  { s with
    cell := upd s.cell s.count ⟨x, f, s.on x, []⟩
    dict := upd s.dict x (dset (s.dict x) (.dec f) s.count)
    count := s.count + 1 }

theorem made_inv {s : St K} (h : Inv N s) {x : Id} (hx : x < s.g.next) (f : Nat) : Inv N (made s x f) := by
  have hm : ∀ y k c, (k, c) ∈ (made s x f).dict y → (y = x ∧ k = .dec f ∧ c = s.count) ∨ ((k, c) ∈ s.dict y ∧ c < s.count) := by
    intro y k c hc
    unfold made upd at hc
    simp only at hc
    split at hc
    · rename_i e
      subst e
      rcases mem_dset hc with hc | hc
      · exact Or.inl ⟨rfl, hc⟩
      · exact Or.inr ⟨hc, h.dlt _ _ _ hc⟩
    · exact Or.inr ⟨hc, h.dlt _ _ _ hc⟩
  have hcell : ∀ c, c < s.count → (made s x f).cell c = s.cell c := by
    intro c hc
    show upd s.cell s.count _ c = _
    unfold upd
    rw [if_neg (Nat.ne_of_lt hc)]
  have hcell' : (made s x f).cell s.count = ⟨x, f, s.on x, []⟩ := if_pos rfl
  constructor
  · exact h.skel
  · intro y
    show DNodup (upd s.dict x _ y)
    unfold upd
    split
    · exact (h.nodup _).dset _ _
    · exact h.nodup y
  · intro y k c hc
    show c < s.count + 1
    rcases hm y k c hc with ⟨-, -, rfl⟩ | ⟨-, hc⟩ <;> omega
  · intro y a c hc
    exact Nat.lt_succ_of_lt (h.hlt y a c hc)
  · intro y k c y' k' h1 h2
    rcases hm y k c h1 with ⟨rfl, rfl, rfl⟩ | ⟨h1, l1⟩ <;> rcases hm y' k' _ h2 with ⟨rfl, rfl, e⟩ | ⟨h2, l2⟩
    · exact ⟨rfl, rfl⟩
    · exact absurd l2 (lt_irrefl _)
    · subst e; exact absurd l1 (lt_irrefl _)
    · exact h.uniq _ _ _ _ _ h1 h2
  · intro y f' c hc
    rcases hm y _ c hc with ⟨rfl, -, rfl⟩ | ⟨hc, hl⟩
    · rw [hcell']
      exact ⟨rfl, rfl, fun h' a ha => absurd (h.hlt h' a _ ha) (lt_irrefl _)⟩
    · rw [hcell c hl]
      exact h.dec y f' c hc
  · intro y f' c hc
    rcases hm y _ c hc with ⟨-, e, -⟩ | ⟨hc, hl⟩
    · cases e
    · rw [hcell c hl]
      exact h.bound y f' c hc
  · intro c
    show (upd s.cell s.count _ c).enabled = false → (upd s.cell s.count _ c).store = []
    unfold upd
    split
    · intro _; rfl
    · exact h.off c
  · intro c hc
    have hc : c < s.count + 1 := hc
    by_cases e : c = s.count
    · subst e; rw [hcell']; exact hx
    · rw [hcell c (by omega)]; exact h.olt c (by omega)
  · intro y hy
    refine ⟨(h.fresh y hy).1, ?_, (h.fresh y hy).2.2⟩
    show upd s.dict x _ y = []
    unfold upd
    have hy : s.g.next ≤ y := hy
    rw [if_neg (by intro e; rw [e] at hy; exact absurd hx (Nat.not_lt.mpr hy))]
    exact (h.fresh y hy).2.1

theorem callDec_eq (limit : Nat) (s : St K) (x : Id) (f : Nat) (k : K) :
    callDec limit s x f k = match dget (s.dict x) (.dec f) with
      | some c => use limit s c k
      | none => use limit (made s x f) s.count k := rfl

theorem callDec_inv {limit : Nat} {s : St K} (h : Inv N s) {x : Id} (hx : x < s.g.next) (f : Nat) (k : K) :
    Inv N (callDec limit s x f k).1 := by
  rw [callDec_eq]
  split
  · exact use_inv h _ _
  · exact use_inv (made_inv h hx f) _ _

theorem new_mem {s : St K} (h : Inv N s) (hd : Id) (a : Nat) (o : Id) (f : Nat) (en : Bool) (y : Id) (k : Fn) (c : Nat)
    (hc : (k, c) ∈ (new s hd a o f en).dict y) :
    (y = o ∧ k = .bound f ∧ c = s.count) ∨ ((k, c) ∈ s.dict y ∧ c < s.count) := by
  unfold new upd at hc
  simp only at hc
  split at hc
  · rename_i e
    subst e
    rcases mem_dset hc with hc | hc
    · exact Or.inl ⟨rfl, hc⟩
    · exact Or.inr ⟨hc, h.dlt _ _ _ hc⟩
  · exact Or.inr ⟨hc, h.dlt _ _ _ hc⟩

theorem new_cell {s : St K} {c : Nat} (hc : c < s.count) (hd : Id) (a : Nat) (o : Id) (f : Nat) (en : Bool) :
    (new s hd a o f en).cell c = s.cell c := if_neg (Nat.ne_of_lt hc)

theorem new_cell' (s : St K) (hd : Id) (a : Nat) (o : Id) (f : Nat) (en : Bool) :
    (new s hd a o f en).cell s.count = ⟨o, f, en && s.on o, []⟩ := if_pos rfl

theorem new_held {s : St K} (hd : Id) (a : Nat) (o : Id) (f : Nat) (en : Bool) {y a' c : Nat}
    (hc : (a', c) ∈ (new s hd a o f en).held y) : (y = hd ∧ c = s.count) ∨ (a', c) ∈ s.held y := by
  unfold new upd at hc
  simp only at hc
  split at hc
  · rename_i e
    subst e
    rcases mem_dset hc with hc | hc
    · exact Or.inl ⟨rfl, hc.2⟩
    · exact Or.inr hc
  · exact Or.inr hc


theorem new_inv {s : St K} (h : Inv N s) {hd : Id} (hh : hd < s.g.next ∨ N hd) (a : Nat) {o : Id} (ho : o < s.g.next)
    (f : Nat) (en : Bool) : Inv N (new s hd a o f en) := by
  have hm := new_mem h hd a o f en
  constructor
  · exact h.skel
  · intro y
    show DNodup (upd s.dict o _ y)
    unfold upd
    split
    · exact (h.nodup _).dset _ _
    · exact h.nodup y
  · intro y k c hc
    show c < s.count + 1
    rcases hm y k c hc with ⟨-, -, rfl⟩ | ⟨-, hc⟩ <;> omega
  · intro y a' c hc
    show c < s.count + 1
    rcases new_held hd a o f en hc with ⟨-, rfl⟩ | hc
    · omega
    · exact Nat.lt_succ_of_lt (h.hlt y a' c hc)
  · intro y k c y' k' h1 h2
    rcases hm y k c h1 with ⟨rfl, rfl, rfl⟩ | ⟨h1, l1⟩ <;> rcases hm y' k' _ h2 with ⟨rfl, rfl, e⟩ | ⟨h2, l2⟩
    · exact ⟨rfl, rfl⟩
    · exact absurd l2 (lt_irrefl _)
    · subst e; exact absurd l1 (lt_irrefl _)
    · exact h.uniq _ _ _ _ _ h1 h2
  · intro y f' c hc
    rcases hm y _ c hc with ⟨-, e, -⟩ | ⟨hc, hl⟩
    · cases e
    · rw [new_cell hl]
      obtain ⟨d1, d2, d3⟩ := h.dec y f' c hc
      refine ⟨d1, d2, fun h' a' ha => ?_⟩
      rcases new_held hd a o f en ha with ⟨-, e⟩ | ha
      · omega
      · exact d3 h' a' ha
  · intro y f' c hc
    rcases hm y _ c hc with ⟨rfl, e, rfl⟩ | ⟨hc, hl⟩
    · cases e
      rw [new_cell']
      exact ⟨rfl, rfl⟩
    · rw [new_cell hl]
      exact h.bound y f' c hc
  · intro c
    show (upd s.cell s.count _ c).enabled = false → (upd s.cell s.count _ c).store = []
    unfold upd
    split
    · intro _; rfl
    · exact h.off c
  · intro c hc
    have hc : c < s.count + 1 := hc
    by_cases e : c = s.count
    · subst e; rw [new_cell']; exact ho
    · rw [new_cell (by omega)]; exact h.olt c (by omega)
  · intro y hy
    have hy : s.g.next ≤ y := hy
    refine ⟨(h.fresh y hy).1, ?_, ?_⟩
    · show upd s.dict o _ y = []
      unfold upd
      rw [if_neg (by intro e; rw [e] at hy; exact absurd ho (Nat.not_lt.mpr hy))]
      exact (h.fresh y hy).2.1
    · show N y ∨ upd s.held hd _ y = []
      unfold upd
      split
      · rename_i e
        subst e
        rcases hh with hh | hh
        · exact absurd hh (Nat.not_lt.mpr hy)
        · exact Or.inl hh
      · exact (h.fresh y hy).2.2

theorem set_off (b : Bool) (e : Cch K) (_h : e.enabled = false → e.store = []) :
    (e.set b).enabled = false → (e.set b).store = [] := by
  cases b <;> simp [Cch.set]

theorem set_enabled (b : Bool) (e : Cch K) : (e.set b).enabled = b := by cases b <;> rfl

theorem set_owner (b : Bool) (e : Cch K) : (e.set b).owner = e.owner ∧ (e.set b).fn = e.fn := by
  cases b <;> exact ⟨rfl, rfl⟩

theorem setObj_owner (b : Bool) (s : St K) (y : Id) (c : Nat) :
    ((setObj b s y).cell c).owner = (s.cell c).owner ∧ ((setObj b s y).cell c).fn = (s.cell c).fn := by
  show (if _ then _ else _ : Cch K).owner = _ ∧ (if _ then _ else _ : Cch K).fn = _
  split
  · exact set_owner b _
  · exact ⟨rfl, rfl⟩

theorem setObj_inv {s : St K} (h : Inv N s) {y : Id} (hy : y < s.g.next) (b : Bool) : Inv N (setObj b s y) := by
  constructor
  · exact h.skel
  · exact h.nodup
  · exact h.dlt
  · exact h.hlt
  · exact h.uniq
  · intro z f c hc
    replace hc : (Fn.dec f, c) ∈ s.dict z := hc
    obtain ⟨d1, d2, d3⟩ := h.dec z f c hc
    refine ⟨(setObj_owner b s y c).1.trans d1, ?_, d3⟩
    show (if c ∈ (s.dict y).map Prod.snd then _ else _ : Cch K).enabled = upd s.on y b z
    unfold upd
    by_cases hz : z = y
    · subst hz
      have hm : c ∈ (s.dict z).map Prod.snd := List.mem_map.mpr ⟨_, hc, rfl⟩
      rw [if_pos hm, if_pos rfl, set_enabled]
    · rw [if_neg, if_neg hz]
      · exact d2
      · rintro hm
        obtain ⟨⟨k, c'⟩, hm', e⟩ := List.mem_map.mp hm
        cases e
        exact hz (h.uniq _ _ _ _ _ hc hm').1
  · intro z f c hc
    obtain ⟨d1, d2⟩ := h.bound z f c hc
    exact ⟨(setObj_owner b s y c).1.trans d1, (setObj_owner b s y c).2.trans d2⟩
  · intro c
    show (if c ∈ (s.dict y).map Prod.snd then _ else _ : Cch K).enabled = false →
      (if c ∈ (s.dict y).map Prod.snd then _ else _ : Cch K).store = []
    split
    · exact set_off b _ (h.off c)
    · exact h.off c
  · intro c hc
    rw [(setObj_owner b s y c).1]
    exact h.olt c hc
  · intro z hz
    have hz : s.g.next ≤ z := hz
    refine ⟨?_, (h.fresh z hz).2⟩
    show upd s.on y b z = true
    unfold upd
    rw [if_neg (by intro e; rw [e] at hz; exact absurd hy (Nat.not_lt.mpr hz))]
    exact (h.fresh z hz).1

theorem foldl_setObj (b : Bool) : ∀ (l : List Id) {s : St K}, Inv N s → (∀ y ∈ l, y < s.g.next) →
    Inv N (l.foldl (setObj b) s) ∧ (l.foldl (setObj b) s).g = s.g ∧ (l.foldl (setObj b) s).dict = s.dict ∧
    (l.foldl (setObj b) s).held = s.held ∧ (l.foldl (setObj b) s).count = s.count ∧
    (∀ y, (l.foldl (setObj b) s).on y = if y ∈ l then b else s.on y) ∧
    (∀ c, ((l.foldl (setObj b) s).cell c).owner = (s.cell c).owner ∧
      ((l.foldl (setObj b) s).cell c).fn = (s.cell c).fn) ∧
    (∀ c, (∃ y ∈ l, ∃ k, (k, c) ∈ s.dict y) → ((l.foldl (setObj b) s).cell c).enabled = b) ∧
    (∀ c, (¬ ∃ y ∈ l, ∃ k, (k, c) ∈ s.dict y) → ((l.foldl (setObj b) s).cell c).enabled = (s.cell c).enabled) := by
  intro l
  induction l with
  | nil => intro s h _; exact ⟨h, rfl, rfl, rfl, rfl, by simp, by simp, by simp, by simp⟩
  | cons x l ih =>
    intro s h hl
    have hx := hl x List.mem_cons_self
    obtain ⟨i1, i2, i3, i4, i5, i6, i7, i8, i9⟩ := ih (setObj_inv h hx b) (fun y hy => hl y (List.mem_cons_of_mem _ hy))
    refine ⟨i1, i2, i3, i4, i5, fun y => ?_, fun c => ?_, fun c hc => ?_, fun c hc => ?_⟩
    · rw [List.foldl_cons, i6]
      show (if y ∈ l then b else upd s.on x b y) = _
      unfold upd
      by_cases h1 : y ∈ l <;> by_cases h2 : y = x <;> simp [h1, h2]
    · rw [List.foldl_cons, (i7 c).1, (i7 c).2]
      exact setObj_owner b s x c
    · rw [List.foldl_cons]
      by_cases h1 : ∃ y ∈ l, ∃ k, (k, c) ∈ s.dict y
      · exact i8 c h1
      · refine (i9 c h1).trans ?_
        obtain ⟨y, hy, k, hk⟩ := hc
        rcases List.mem_cons.mp hy with rfl | hy
        · have hm : c ∈ (s.dict y).map Prod.snd := List.mem_map.mpr ⟨_, hk, rfl⟩
          show (if c ∈ (s.dict y).map Prod.snd then _ else _ : Cch K).enabled = _
          rw [if_pos hm, set_enabled]
        · exact absurd ⟨y, hy, k, hk⟩ h1
    · rw [List.foldl_cons]
      refine (i9 c (fun ⟨y, hy, hk⟩ => hc ⟨y, List.mem_cons_of_mem _ hy, hk⟩)).trans ?_
      show (if c ∈ (s.dict x).map Prod.snd then _ else _ : Cch K).enabled = _
      rw [if_neg]
      intro hm
      obtain ⟨⟨k, c'⟩, hm', e⟩ := List.mem_map.mp hm
      cases e
      exact hc ⟨x, List.mem_cons_self, k, hm'⟩

theorem trace_iff {s : St K} (h : Inv N s) (x y : Id) :
    y ∈ (s.g.traverse (fun _ _ => false) Hier.Graph.fresh x).trace ↔ Anc s.g x y :=
  (Hier.Graph.traverse_visits_partial h.skel (fun _ _ => rfl) x).2.2.1 y

/-- What switching does. -/
theorem switch_spec {s : St K} (h : Inv N s) {x : Id} (hx : x < s.g.next) (b : Bool) :
    Inv N (switch b s x) ∧ (switch b s x).g = s.g ∧ (switch b s x).dict = s.dict ∧
    (switch b s x).held = s.held ∧ (switch b s x).count = s.count ∧
    (∀ y, Anc s.g x y → (switch b s x).on y = b) ∧ (∀ y, ¬ Anc s.g x y → (switch b s x).on y = s.on y) ∧
    (∀ c, ((switch b s x).cell c).owner = (s.cell c).owner ∧ ((switch b s x).cell c).fn = (s.cell c).fn) ∧
    (∀ y k c, Anc s.g x y → (k, c) ∈ s.dict y → ((switch b s x).cell c).enabled = b) ∧
    (∀ c, (∀ y k, Anc s.g x y → (k, c) ∉ s.dict y) → ((switch b s x).cell c).enabled = (s.cell c).enabled) := by
  have ht := trace_iff h x
  obtain ⟨i1, i2, i3, i4, i5, i6, i7, i8, i9⟩ := foldl_setObj b
    (s.g.traverse (fun _ _ => false) Hier.Graph.fresh x).trace h (fun y hy => h.skel.desc_lt ((ht y).mp hy) hx)
  refine ⟨i1, i2, i3, i4, i5, fun y hy => ?_, fun y hy => ?_, i7, fun y k c hy hc => ?_, fun c hc => ?_⟩
  · exact (i6 y).trans (if_pos ((ht y).mpr hy))
  · exact (i6 y).trans (if_neg (fun e => hy ((ht y).mp e)))
  · exact i8 c ⟨y, (ht y).mpr hy, k, hc⟩
  · refine i9 c ?_
    rintro ⟨y, hy, k, hk⟩
    exact hc y k ((ht y).mp hy) hk

/-- What making a copy leaves alone. -/
structure Kept (s s' : St K) : Prop where
  g : s'.g = s.g
  on : ∀ y, y < s.g.next → s'.on y = s.on y
  dec : ∀ y f, y < s.g.next → dget (s'.dict y) (.dec f) = dget (s.dict y) (.dec f)
  held : ∀ y, y < s.g.next → s'.held y = s.held y
  cell : ∀ c, c < s.count → s'.cell c = s.cell c
  count : s.count ≤ s'.count

theorem Kept.refl (s : St K) : Kept s s :=
  ⟨rfl, fun _ _ => rfl, fun _ _ _ => rfl, fun _ _ => rfl, fun _ _ => rfl, le_refl _⟩

theorem Kept.trans {s s' s'' : St K} (h : Kept s s') (h' : Kept s' s'') : Kept s s'' :=
  ⟨h'.g.trans h.g, fun y hy => (h'.on y (by rw [h.g]; exact hy)).trans (h.on y hy),
    fun y f hy => (h'.dec y f (by rw [h.g]; exact hy)).trans (h.dec y f hy),
    fun y hy => (h'.held y (by rw [h.g]; exact hy)).trans (h.held y hy),
    fun c hc => (h'.cell c (lt_of_lt_of_le hc h.count)).trans (h.cell c hc), le_trans h.count h'.count⟩

theorem recach_inv {s : St K} (h : Inv N s) {n : Id} (hn : s.g.next ≤ n) (hN : N n) {p : Nat × Nat} (hp : p.2 < s.count) :
    Inv N (recach n s p) ∧ Kept s (recach n s p) ∧
    ∀ y f, ((s.cell p.2).owner ≠ y ∨ (s.cell p.2).fn ≠ f) →
      dget ((recach n s p).dict y) (.bound f) = dget (s.dict y) (.bound f) := by
  refine ⟨new_inv h (Or.inr hN) _ (h.olt _ hp) _ _, ⟨rfl, fun _ _ => rfl, fun y f _ => ?_, fun y hy => ?_, fun c hc => ?_,
    Nat.le_succ _⟩, fun y f hf => ?_⟩
  · show dget (upd s.dict _ _ y) _ = _
    unfold upd
    split
    · rename_i e; subst e; rw [Cache.dget_dset, if_neg (by simp)]
    · rfl
  · show upd s.held n _ y = _
    unfold upd
    rw [if_neg (by intro e; rw [e] at hy; exact absurd hy (Nat.not_lt.mpr hn))]
  · exact new_cell hc _ _ _ _ _
  · show dget (upd s.dict _ _ y) _ = _
    unfold upd
    split
    · rename_i e
      subst e
      rw [Cache.dget_dset, if_neg]
      rcases hf with hf | hf
      · exact absurd rfl hf
      · intro e; exact hf (Fn.bound.inj e).symm
    · rfl

theorem foldl_recach {n : Id} (hN : N n) : ∀ (l : List (Nat × Nat)) {s : St K}, Inv N s → s.g.next ≤ n → (∀ p ∈ l, p.2 < s.count) →
    Inv N (l.foldl (recach n) s) ∧ Kept s (l.foldl (recach n) s) ∧
    ∀ y f, (∀ p ∈ l, (s.cell p.2).owner ≠ y ∨ (s.cell p.2).fn ≠ f) →
      dget ((l.foldl (recach n) s).dict y) (.bound f) = dget (s.dict y) (.bound f) := by
  intro l
  induction l with
  | nil => intro s h _ _; exact ⟨h, Kept.refl s, fun _ _ _ => rfl⟩
  | cons p l ih =>
    intro s h hn hl
    have hp := hl p List.mem_cons_self
    obtain ⟨r1, r2, r3⟩ := recach_inv h hn hN hp
    obtain ⟨i1, i2, i3⟩ := ih r1 (by rw [r2.g]; exact hn)
      (fun q hq => lt_of_lt_of_le (hl q (List.mem_cons_of_mem _ hq)) r2.count)
    refine ⟨i1, r2.trans i2, fun y f hf => ?_⟩
    refine (i3 y f (fun q hq => ?_)).trans (r3 y f (hf p List.mem_cons_self))
    rw [r2.cell q.2 (hl q (List.mem_cons_of_mem _ hq))]
    exact hf q (List.mem_cons_of_mem _ hq)

theorem copyObj_inv {s : St K} (h : Inv N s) {p : Id × Id} (_hp : p.1 < s.g.next) (hn : s.g.next ≤ p.2) (hN : N p.2) :
    Inv N (copyObj s p) ∧ Kept s (copyObj s p) ∧
    ∀ y f, y < s.g.next → (∀ q ∈ s.held p.1, (s.cell q.2).owner ≠ y ∨ (s.cell q.2).fn ≠ f) →
      dget ((copyObj s p).dict y) (.bound f) = dget (s.dict y) (.bound f) := by
  have ne : ∀ y, y < s.g.next → y ≠ p.2 := fun y hy e => by
    rw [e] at hy; exact absurd hy (Nat.not_lt.mpr hn)
  have hdict : upd s.dict p.2 [] = s.dict := by
    funext y; unfold upd; split
    · rename_i e; rw [e]; exact (h.fresh _ hn).2.1.symm
    · rfl
  have hon : upd s.on p.2 true = s.on := by
    funext y; unfold upd; split
    · rename_i e; rw [e]; exact (h.fresh _ hn).1.symm
    · rfl
  have hheld : ∀ y a c, (a, c) ∈ upd s.held p.2 [] y → (a, c) ∈ s.held y := by
    intro y a c hc
    unfold upd at hc
    split at hc
    · cases hc
    · exact hc
  have hi : Inv N { s with on := upd s.on p.2 true, dict := upd s.dict p.2 [], held := upd s.held p.2 [] } := by
    rw [hdict, hon]
    refine ⟨h.skel, h.nodup, h.dlt, fun y a c hc => h.hlt y a c (hheld y a c hc), h.uniq, fun y f c hc => ?_, h.bound,
      h.off, h.olt, fun y hy => ⟨(h.fresh y hy).1, (h.fresh y hy).2.1, ?_⟩⟩
    · obtain ⟨a, b, d⟩ := h.dec y f c hc
      exact ⟨a, b, fun h' a' ha => d h' a' (hheld _ _ _ ha)⟩
    · show N y ∨ upd s.held p.2 [] y = []
      unfold upd
      split
      · exact Or.inr rfl
      · exact (h.fresh y hy).2.2
  have hk : Kept s { s with on := upd s.on p.2 true, dict := upd s.dict p.2 [], held := upd s.held p.2 [] } :=
    ⟨rfl, fun y hy => if_neg (ne y hy), fun y f _ => by rw [hdict], fun y hy => if_neg (ne y hy), fun _ _ => rfl, le_refl _⟩
  obtain ⟨i1, i2, i3⟩ := foldl_recach hN (s.held p.1) hi hn (fun q hq => h.hlt _ _ _ hq)
  refine ⟨i1, hk.trans i2, fun y f _ hf => ?_⟩
  refine (i3 y f hf).trans ?_
  show dget (upd s.dict p.2 [] y) _ = _
  rw [hdict]

theorem foldl_copyObj : ∀ (l : List (Id × Id)) {s : St K}, Inv N s →
    (∀ p ∈ l, p.1 < s.g.next ∧ s.g.next ≤ p.2 ∧ N p.2) →
    Inv N (l.foldl copyObj s) ∧ Kept s (l.foldl copyObj s) ∧
    ∀ y f, y < s.g.next → (∀ p ∈ l, ∀ q ∈ s.held p.1, (s.cell q.2).owner ≠ y ∨ (s.cell q.2).fn ≠ f) →
      dget ((l.foldl copyObj s).dict y) (.bound f) = dget (s.dict y) (.bound f) := by
  intro l
  induction l with
  | nil => intro s h _; exact ⟨h, Kept.refl s, fun _ _ _ _ => rfl⟩
  | cons p l ih =>
    intro s h hl
    obtain ⟨p1, p2, p3⟩ := hl p List.mem_cons_self
    obtain ⟨r1, r2, r3⟩ := copyObj_inv h p1 p2 p3
    obtain ⟨i1, i2, i3⟩ := ih r1 (fun q hq => by rw [r2.g]; exact hl q (List.mem_cons_of_mem _ hq))
    refine ⟨i1, r2.trans i2, fun y f hy hf => ?_⟩
    refine (i3 y f (by rw [r2.g]; exact hy) (fun q hq e he => ?_)).trans (r3 y f hy (hf p List.mem_cons_self))
    rw [r2.held q.1 (hl q (List.mem_cons_of_mem _ hq)).1] at he
    rw [r2.cell e.2 (h.hlt _ _ _ he)]
    exact hf q (List.mem_cons_of_mem _ hq) e he

/-- A larger or other hierarchy. -/
theorem Inv.hier {s : St K} (h : Inv N s) {g : Graph} (hg : Skel g) (hn : s.g.next ≤ g.next)
    (hN : ∀ y, N y → y < g.next) : Good { s with g := g } where
  skel := hg
  nodup := h.nodup
  dlt := h.dlt
  hlt := h.hlt
  uniq := h.uniq
  dec := h.dec
  bound := h.bound
  off := h.off
  olt c hc := lt_of_lt_of_le (h.olt c hc) hn
  fresh y hy := by
    obtain ⟨a, b, c⟩ := h.fresh y (le_trans hn hy)
    refine ⟨a, b, Or.inr ?_⟩
    rcases c with c | c
    · exact absurd (hN y c) (Nat.not_lt.mpr hy)
    · exact c

theorem copy_facts {s : St K} (h : Good s) {ps : List (Id × Id)} {g : Graph} (ok : Ok s (.copy ps g)) :
    Inv (fun y => ∃ p ∈ ps, p.2 = y) (ps.foldl copyObj s) ∧ Kept s (ps.foldl copyObj s) ∧
    ∀ y f, y < s.g.next → (∀ p ∈ ps, ∀ q ∈ s.held p.1, (s.cell q.2).owner ≠ y ∨ (s.cell q.2).fn ≠ f) →
      dget ((ps.foldl copyObj s).dict y) (.bound f) = dget (s.dict y) (.bound f) := by
  have h' : Inv (fun y => ∃ p ∈ ps, p.2 = y) s :=
    ⟨h.skel, h.nodup, h.dlt, h.hlt, h.uniq, h.dec, h.bound, h.off, h.olt,
      fun y hy => ⟨(h.fresh y hy).1, (h.fresh y hy).2.1, (h.fresh y hy).2.2.imp False.elim id⟩⟩
  exact foldl_copyObj ps h' (fun p hp => ⟨(ok.2.2 p hp).1, (ok.2.2 p hp).2.1, p, hp, rfl⟩)

theorem step_good {limit : Nat} {s : St K} (h : Good s) {o : Op K} (ok : Ok s o) : Good (step limit s o) := by
  cases o with
  | callDec x f k => exact callDec_inv h ok f k
  | new hd a o f en => exact new_inv h (Or.inl ok.1) a ok.2 f en
  | callAttr hd a k =>
    show Good (callAttr limit s hd a k).1
    unfold callAttr
    split
    · exact use_inv h _ _
    · exact h
  | switch b x => exact (switch_spec h ok b).1
  | switchAttr b hd a =>
    show Good (match dget (s.held hd) a with
      | some c => { s with cell := upd s.cell c ((s.cell c).set b) }
      | none => s)
    split
    · rename_i c hc
      have hm := Cache.mem_of_dget hc
      have hne : ∀ y f c', (.dec f, c') ∈ s.dict y → c' ≠ c := by
        rintro y f c' hc' rfl
        exact (h.dec y f c' hc').2.2 hd a hm
      have ho : ∀ c', (upd s.cell c ((s.cell c).set b) c').owner = (s.cell c').owner ∧
          (upd s.cell c ((s.cell c).set b) c').fn = (s.cell c').fn := by
        intro c'
        unfold upd
        split
        · rename_i e; subst e; exact set_owner b _
        · exact ⟨rfl, rfl⟩
      refine ⟨h.skel, h.nodup, h.dlt, h.hlt, h.uniq, fun y f c' hc' => ?_, fun y f c' hc' => ?_, fun c' => ?_,
        fun c' hc' => ?_, h.fresh⟩
      · show (upd s.cell c _ c').owner = y ∧ (upd s.cell c _ c').enabled = s.on y ∧ _
        rw [show upd s.cell c ((s.cell c).set b) c' = s.cell c' from if_neg (hne y f c' hc')]
        exact h.dec y f c' hc'
      · exact ⟨(ho c').1.trans (h.bound y f c' hc').1, (ho c').2.trans (h.bound y f c' hc').2⟩
      · show (upd s.cell c _ c').enabled = false → (upd s.cell c _ c').store = []
        unfold upd
        split
        · exact set_off b _ (h.off c)
        · exact h.off c'
      · exact lt_of_eq_of_lt (ho c').1 (h.olt c' hc')
    · exact h
  | hier g => exact Inv.hier h ok.1 ok.2 (fun _ => False.elim)
  | copy ps g =>
    obtain ⟨i1, i2, -⟩ := copy_facts h ok
    refine Inv.hier i1 ok.1 (by rw [i2.g]; exact ok.2.1) ?_
    rintro y ⟨p, hp, rfl⟩
    exact (ok.2.2 p hp).2.2

theorem step_next {limit : Nat} {s : St K} (h : Good s) {o : Op K} (ok : Ok s o) : s.g.next ≤ (step limit s o).g.next := by
  cases o with
  | callDec x f k =>
    show _ ≤ (callDec limit s x f k).1.g.next
    rw [callDec_eq]
    split
    · rw [(use_same _ _).1]
    · rw [(use_same _ _).1]; exact le_refl _
  | new hd a o f en => exact le_refl _
  | callAttr hd a k =>
    show _ ≤ (callAttr limit s hd a k).1.g.next
    unfold callAttr
    split
    · rw [(use_same _ _).1]
    · exact le_refl _
  | switch b x =>
    show _ ≤ (switch b s x).g.next
    rw [(switch_spec h ok b).2.1]
  | switchAttr b hd a =>
    show _ ≤ (match dget (s.held hd) a with
      | some c => { s with cell := upd s.cell c ((s.cell c).set b) }
      | none => s).g.next
    split <;> exact le_refl _
  | hier g => exact ok.2
  | copy ps g => exact ok.2.1

/-- The switch of an object changes only by switching it or an object above it. -/
theorem step_on {limit : Nat} {s : St K} (h : Good s) {o : Op K} (ok : Ok s o) {y : Id} (hy : y < s.g.next)
    (hq : ∀ b x, o = .switch b x → ¬ Anc s.g x y) : (step limit s o).on y = s.on y := by
  cases o with
  | callDec x f k =>
    show (callDec limit s x f k).1.on y = _
    rw [callDec_eq]
    split
    · rw [(use_same _ _).2.1]
    · rw [(use_same _ _).2.1]; rfl
  | new hd a o f en => rfl
  | callAttr hd a k =>
    show (callAttr limit s hd a k).1.on y = _
    unfold callAttr
    split
    · rw [(use_same _ _).2.1]
    · rfl
  | switch b x => exact (switch_spec h ok b).2.2.2.2.2.2.1 y (hq b x rfl)
  | switchAttr b hd a =>
    show (match dget (s.held hd) a with
      | some c => { s with cell := upd s.cell c ((s.cell c).set b) }
      | none => s).on y = _
    split <;> rfl
  | hier g => rfl
  | copy ps g => exact (copy_facts h ok).2.1.on y hy

end Paramz.Switch

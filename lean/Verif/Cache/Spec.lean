import Verif.Cache.Model

/-!
# Specification of a cacher: a first-in first-out list of results

No keys, no reference counting, no registrations: a list of entries, oldest first, each remembering
the objects it was computed from, the result, and whether one of the objects announced a change.
-/

namespace Paramz.Cache.Spec

variable {V N E R : Type} [LinearOrder N]

/-- A remembered result. -/
structure Entry (R : Type) where
  args : List Nat
  out : R
  stale : Bool
  deriving DecidableEq, Repr

/-- A live object as far as the specification cares. -/
structure SObj (V : Type) where
  kind : Kind
  val : V
  on : Bool

/-- Heap, remembered results (oldest first), switch. -/
structure St (V R : Type) where
  heap : Nat → Option (SObj V)
  cache : List (Entry R)
  enabled : Bool

/-- Append a new entry; if the cache is full the oldest entry goes. -/
def store (limit : Int) (c : List (Entry R)) (e : Entry R) : List (Entry R) :=
  (if (c.length : Int) = limit then c.tail else c) ++ [e]

/-- A call that may use the cache: fresh entry → its result without running the operation; stale entry →
run and refresh in place; no entry → run and store. A failing operation empties the cache. -/
def cached (limit : Int) (c : List (Entry R)) (l : List Nat) (now : Except E R) :
    (Except E R × Bool) × List (Entry R) :=
  match c.find? (fun e => decide (e.args = l)) with
  | some e =>
    if e.stale then
      match now with
      | .ok v => ((.ok v, true), c.map (fun x => if x.args = l then ⟨l, v, false⟩ else x))
      | .error er => ((.error er, true), [])
    else ((.ok e.out, false), c)
  | none =>
    match now with
    | .ok v => ((.ok v, true), store limit c ⟨l, v, false⟩)
    | .error er => ((.error er, true), [])

/-- The object announces a change caused by `w`: nothing happens unless some entry depends on it. -/
def announce (isObs : Nat → Bool) (c : List (Entry R)) (a w : Nat) : List (Entry R) :=
  if c.any (fun e => decide (a ∈ e.args)) then
    c.map (fun e => if a ∈ e.args ∨ (w ∈ e.args ∧ isObs w = true) then { e with stale := true } else e)
  else c

/-- Class of the object at an address. -/
def kindAt (h : Nat → Option (SObj V)) (a : Nat) : Kind :=
  match h a with
  | some o => o.kind
  | none => .other

/-- Contents of positional and keyword arguments. -/
def vals (h : Nat → Option (SObj V)) (l : List Nat) : Option (List V) :=
  l.mapM (fun a => (h a).map SObj.val)

def kwVals (h : Nat → Option (SObj V)) (kw : List (N × Nat)) : Option (List (N × V)) :=
  kw.mapM (fun p => (h p.2).map (fun o => (p.1, o.val)))

/-- Outcome of one event: new state, and for calls of live objects the result and whether the operation
ran. -/
def step (cfg : Cfg V N E R) (s : St V R) : Ev V N → St V R × Option (Except E R × Bool)
  | .call args kw =>
    match vals s.heap args, kwVals s.heap kw with
    | some va, some vk =>
      let l := combine cfg.ignore args kw
      if s.enabled = false ∨
          (∃ n ∈ cfg.force, ∃ p ∈ kw, p.1 = n ∧ kindAt s.heap p.2 ≠ .none) ∨
          (∃ a ∈ l, kindAt s.heap a = .other) then
        (s, some (cfg.op va vk, true))
      else
        let r := cached cfg.limit s.cache l (cfg.op va vk)
        ({ s with cache := r.2 }, some r.1)
    | _, _ => (s, none)
  | .set a v => match s.heap a with
    | some o => if o.kind = .observable then
        ({ s with heap := fun i => if i = a then some { o with val := v } else s.heap i }, none)
      else (s, none)
    | none => (s, none)
  | .notify a w => match s.heap a with
    | some o => if o.kind = .observable ∧ o.on = true then
        ({ s with cache := announce (fun x => decide (kindAt s.heap x = .observable)) s.cache a w }, none)
      else (s, none)
    | none => (s, none)
  | .setOn a b => match s.heap a with
    | some o => ({ s with heap := fun i => if i = a then some { o with on := b } else s.heap i }, none)
    | none => (s, none)
  | .reset => ({ s with cache := [] }, none)
  | .disable => ({ s with cache := [], enabled := false }, none)
  | .enable => ({ s with enabled := true }, none)
  | .alloc a kind v _ => match s.heap a with
    | some _ => (s, none)
    | none => ({ s with heap := fun i => if i = a then some ⟨kind, v, true⟩ else s.heap i }, none)
  | .free a =>
    if ∃ e ∈ s.cache, a ∈ e.args then (s, none)
    else ({ s with heap := fun i => if i = a then none else s.heap i }, none)

/-- Empty. -/
def init : St V R := { heap := fun _ => none, cache := [], enabled := true }

/-- Outcomes of a history. -/
def trace (cfg : Cfg V N E R) : St V R → List (Ev V N) → List (Option (Except E R × Bool))
  | _, [] => []
  | s, e :: r => (step cfg s e).2 :: trace cfg (step cfg s e).1 r

/-- State after a history. -/
def run (cfg : Cfg V N E R) (s : St V R) (evs : List (Ev V N)) : St V R :=
  evs.foldl (fun s e => (step cfg s e).1) s

end Paramz.Cache.Spec

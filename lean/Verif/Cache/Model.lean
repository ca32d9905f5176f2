import Mathlib.Data.List.Sort
import Verif.Cache.Dict

/-!
# Model of `Cacher` (`caching.py`)

The python heap is explicit: objects live at addresses (`id`), addresses are reused after garbage
collection, and an object that the cache refers to (`cached_inputs` holds strong references) is never
collected.  Object contents are an arbitrary type `V`; keyword names an arbitrary linear order `N`.

Simplifications: the operation reads argument contents only and does not itself change arguments or
call the same cacher; a stored result is not modified by its receiver; one cacher is considered (other
observers of the inputs do not matter for it); interrupts inside the cacher are not modelled.
-/

namespace Paramz.Cache

/-- The classes of objects that `Cacher.__call__` tells apart (caching.py:169). -/
inductive Kind
  | none | number | str | observable | other
  deriving DecidableEq, Repr

/-- A live python object: its class, present contents, the identity of its observer list (numpy views
of an `ObsAr` share the list of their base, observable_array.py:69-73), an identity that is never
reused (what a weak reference refers to), and `_update_on`. -/
structure Obj (V : Type) where
  kind : Kind
  val : V
  list : Nat
  uid : Nat
  on : Bool

/-- Heap. `reg n` counts how often `(cacher, on_cache_changed)` is registered in observer list `n`.
`dirty` is a ghost: the addresses of objects changed since they last notified their observers. -/
structure World (V : Type) where
  cell : Nat → Option (Obj V)
  reg : Nat → Nat
  fresh : Nat
  dirty : List Nat

/-- `hex(id(obj))` (caching.py:86-88). -/
def hexId (a : Nat) : List Char := '0' :: 'x' :: Nat.toDigits 16 a

/-- Cache ids are strings. -/
abbrev Key := List Char

/-- `prepare_cache_id` (caching.py:96-99). -/
def prepareId (l : List Nat) : Key := l.flatMap hexId

variable {V N E R : Type} [LinearOrder N]

/-- `combine_inputs` (caching.py:90-94): positional arguments, then keyword values sorted by name,
without the ignored positions. -/
def combine {A : Type} (ignore : List Nat) (args : List A) (kw : List (N × A)) : List A :=
  let inputs := args ++ (kw.insertionSort (fun x y => x.1 ≤ y.1)).map Prod.snd
  (inputs.zipIdx.filter (fun p => !decide (p.2 ∈ ignore))).map Prod.fst

/-- Constructor arguments of a cacher (caching.py:43-62) and the operation: a function of the contents
of its arguments. -/
structure Cfg (V N E R : Type) where
  limit : Int
  ignore : List Nat
  force : List N
  op : List V → List (N × V) → Except E R

/-- A weak reference to an object. -/
structure Ref where
  addr : Nat
  uid : Nat
  deriving DecidableEq

/-- Attributes of a cacher (caching.py:58-62, 212-223), with the heap. `cached_input_ids` is keyed by
address instead of `hex(address)` (`hexId_injective`). -/
structure St (V R : Type) where
  w : World V
  order : List Key
  inputs : Dict Key (List Nat)
  ids : Dict Nat (Ref × List Key)
  outputs : Dict Key R
  changed : Dict Key Bool
  enabled : Bool

/-- Exceptions a cached call can raise. -/
inductive CErr (E : Type)
  | op (e : E) | indexError | keyError | valueError
  deriving DecidableEq, Repr

/-- `ref()`: the object if it still exists. -/
def deref (w : World V) (r : Ref) : Option (Obj V) :=
  match w.cell r.addr with
  | some o => if o.uid = r.uid then some o else none
  | none => none

/-- `ref().remove_observer(self, self.on_cache_changed)`: removes every such registration
(observable.py:56-73, theorem `Observer.remove_observer_exact`). -/
def unregister (w : World V) (n : Nat) : World V :=
  { w with reg := fun i => if i = n then 0 else w.reg i }

/-- `a.add_observer(self, self.on_cache_changed)`. -/
def register (w : World V) (n : Nat) : World V :=
  { w with reg := fun i => if i = n then w.reg i + 1 else w.reg i }

/-- Class of the object at an address. -/
def kindAt (w : World V) (a : Nat) : Kind :=
  match w.cell a with
  | some o => o.kind
  | none => .other

/-- First line of `reset` (caching.py:210). -/
def resetReg (w : World V) : Dict Nat (Ref × List Key) → World V
  | [] => w
  | (_, ref, _) :: r =>
    match deref w ref with
    | some o => resetReg (unregister w o.list) r
    | none => resetReg w r

/-- `reset` (caching.py:206-223). -/
def reset (s : St V R) : St V R :=
  { s with w := resetReg s.w s.ids, order := [], inputs := [], ids := [], outputs := [], changed := [] }

/-- The loop over the inputs of the evicted entry `k` (caching.py:107-117). -/
def release (k : Key) : List Nat → St V R → Except (CErr E) (St V R)
  | [], s => .ok s
  | ind :: r, s =>
    match dget s.ids ind with
    | none => release k r s
    | some (ref, ks) =>
      match (if ks.length = 1 then deref s.w ref else none) with
      | some o => release k r { s with w := unregister s.w o.list, ids := ddel s.ids ind }
      | none =>
        if k ∈ ks then release k r { s with ids := dset s.ids ind (ref, ks.erase k) }
        else .error .valueError

/-- `ensure_cache_length` (caching.py:101-132). A negative limit is never reached; limit 0 pops from
an empty queue. -/
def ensureLength (cfg : Cfg V N E R) (s : St V R) : Except (CErr E) (St V R) :=
  if (s.order.length : Int) = cfg.limit then
    match s.order with
    | [] => .error .indexError
    | k :: rest =>
      match dget s.inputs k with
      | none => .error .keyError
      | some l =>
        match release k l { s with order := rest } with
        | .error e => .error e
        | .ok s => .ok { s with
            outputs := ddel s.outputs k, changed := ddel s.changed k, inputs := ddel s.inputs k }
  else .ok s

/-- The body of the loop of `add_to_cache` (caching.py:140-147). -/
def addInput (k : Key) (s : St V R) (a : Nat) : St V R :=
  match s.w.cell a with
  | none => s
  | some o =>
    if o.kind = .none ∨ o.kind = .number ∨ o.kind = .str then s
    else
      let v := (dget s.ids a).getD (⟨a, o.uid⟩, [])
      let ks := v.2 ++ [k]
      { s with
        w := if ks.length = 1 then register s.w o.list else s.w
        ids := dset s.ids a (v.1, ks) }

/-- `add_to_cache` (caching.py:134-147). -/
def addToCache (s : St V R) (k : Key) (l : List Nat) (out : R) : St V R :=
  l.foldl (addInput k) { s with
    changed := dset s.changed k false
    outputs := dset s.outputs k out
    order := s.order ++ [k]
    inputs := dset s.inputs k l }

/-- Present contents of arguments; `none` when an address holds no object (such a call does not
exist in python). -/
def valsOf (w : World V) (l : List Nat) : Option (List V) :=
  l.mapM (fun a => (w.cell a).map Obj.val)

/-- Present contents of keyword arguments. -/
def kwValsOf (w : World V) (kw : List (N × Nat)) : Option (List (N × V)) :=
  kw.mapM (fun p => (w.cell p.2).map (fun o => (p.1, o.val)))

/-- Does a forced keyword occur with a value other than `None` (caching.py:160-163)? -/
def forced (cfg : Cfg V N E R) (w : World V) (kw : List (N × Nat)) : Bool :=
  cfg.force.any (fun n => kw.any (fun p => decide (p.1 = n) && !decide (kindAt w p.2 = .none)))

/-- Result of a call: value or exception, whether the operation ran, new state. -/
structure Out (V E R : Type) where
  res : Except (CErr E) R
  ran : Bool
  st : St V R

/-- Run the operation and only pass its outcome on (caching.py:156, 163, 172). -/
def bypass (r : Except E R) (s : St V R) : Out V E R :=
  match r with
  | .ok v => ⟨.ok v, true, s⟩
  | .error e => ⟨.error (.op e), true, s⟩

/-- The cached branch of `__call__` (caching.py:173-192), given the inputs and the outcome the
operation has now. -/
def cachedCall (cfg : Cfg V N E R) (s : St V R) (l : List Nat) (now : Except E R) : Out V E R :=
  let k := prepareId l
  match dget s.changed k with
  | some false =>
    match dget s.outputs k with
    | some v => ⟨.ok v, false, s⟩
    | none => ⟨.error .keyError, false, s⟩
  | some true =>
    match now with
    | .error e => ⟨.error (.op e), true, reset s⟩
    | .ok v => ⟨.ok v, true, { s with
        changed := dset s.changed k false, outputs := dset s.outputs k v }⟩
  | none =>
    match now with
    | .error e => ⟨.error (.op e), true, reset s⟩
    | .ok v =>
      match ensureLength cfg s with
      | .error e => ⟨.error e, true, s⟩
      | .ok s => ⟨.ok v, true, addToCache s k l v⟩

/-- `__call__` (caching.py:149-192); `none` when an argument does not exist. -/
def call (cfg : Cfg V N E R) (s : St V R) (args : List Nat) (kw : List (N × Nat)) :
    Option (Out V E R) :=
  match valsOf s.w args, kwValsOf s.w kw with
  | some va, some vk =>
    let now := cfg.op va vk
    let l := combine cfg.ignore args kw
    if s.enabled = false then some (bypass now s)
    else if forced cfg s.w kw then some (bypass now s)
    else if l.any (fun a => decide (kindAt s.w a = .other)) then some (bypass now s)
    else some (cachedCall cfg s l now)
  | _, _ => none

/-- `self.inputs_changed[cache_id] = True` for each id of one object (caching.py:200-204). -/
def markIds (s : St V R) (a : Nat) : St V R :=
  match dget s.ids a with
  | none => s
  | some (_, ks) => { s with changed := ks.foldl (fun c k => dset c k true) s.changed }

/-- `on_cache_changed` (caching.py:194-204). -/
def onCacheChanged (s : St V R) (direct which : Nat) : St V R := markIds (markIds s direct) which

/-- `disable_cacher` (caching.py:77-80). -/
def disable (s : St V R) : St V R := reset { s with enabled := false }

/-- Everything that can happen to a cacher and its inputs. `set` changes the contents of an observable,
`notify a w` is `a.notify_observers(which=w)` (ignored while updates of `a` are off,
observable.py:87); a write `a[...] = v` is `set a v` followed by `notify a a`
(observable_array.py:117-119). `alloc a kind v share` creates an object at a free address, as a view
sharing the observer list of another object if `share` says so. `free` is garbage collection. -/
inductive Ev (V N : Type)
  | call (args : List Nat) (kw : List (N × Nat))
  | set (a : Nat) (v : V)
  | notify (a w : Nat)
  | setOn (a : Nat) (b : Bool)
  | reset | disable | enable
  | alloc (a : Nat) (kind : Kind) (v : V) (share : Option Nat)
  | free (a : Nat)

/-- Is the object referred to by the cache (`cached_inputs` holds the objects themselves)? -/
def held (s : St V R) (a : Nat) : Bool := s.inputs.any (fun e => decide (a ∈ e.2))

/-- Replace the object at an address. -/
def setCell (w : World V) (a : Nat) (o : Option (Obj V)) : World V :=
  { w with cell := fun i => if i = a then o else w.cell i }

/-- One event. Impossible requests (freeing a held object, allocating at a used address, writing
something that is not a live observable) have no effect. -/
def step (cfg : Cfg V N E R) (s : St V R) : Ev V N → St V R
  | .call args kw => match call cfg s args kw with
    | some o => o.st
    | none => s
  | .set a v => match s.w.cell a with
    | some o => if o.kind = .observable then
        { s with w := { setCell s.w a (some { o with val := v }) with dirty := a :: s.w.dirty } }
      else s
    | none => s
  | .notify a w => match s.w.cell a with
    | some o => if o.kind = .observable ∧ o.on = true then
        let s' := if 0 < s.w.reg o.list then onCacheChanged s a w else s
        { s' with w := { s'.w with dirty := s'.w.dirty.filter (fun x => !decide (x = a)) } }
      else s
    | none => s
  | .setOn a b => match s.w.cell a with
    | some o => { s with w := setCell s.w a (some { o with on := b }) }
    | none => s
  | .reset => reset s
  | .disable => disable s
  | .enable => { s with enabled := true }
  | .alloc a kind v share => match s.w.cell a with
    | some _ => s
    | none =>
      let list := match share with
        | some b => match s.w.cell b with
          | some o => o.list
          | none => s.w.fresh
        | none => s.w.fresh
      { s with w := { setCell s.w a (some ⟨kind, v, list, s.w.fresh, true⟩) with
          fresh := s.w.fresh + 1
          dirty := s.w.dirty.filter (fun x => !decide (x = a)) } }
  | .free a => if held s a then s else { s with w := setCell s.w a none }

/-- An empty heap and a new cacher (caching.py:43-75). -/
def init : St V R :=
  { w := { cell := fun _ => none, reg := fun _ => 0, fresh := 0, dirty := [] }
    order := [], inputs := [], ids := [], outputs := [], changed := [], enabled := true }

/-- A history. -/
def run (cfg : Cfg V N E R) (s : St V R) (evs : List (Ev V N)) : St V R := evs.foldl (step cfg) s

end Paramz.Cache

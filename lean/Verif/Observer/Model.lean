import Mathlib.Order.Basic
import Mathlib.Order.Defs.LinearOrder

/-!
# Model of `ObserverList` (`core/lists_and_dicts.py`) and `Observable` (`core/observable.py`)

Observers and callbacks are identified by numbers; comparing them (`is`, `==`) is comparing numbers
(observers with an `==` of their own are treated in `Observer/Equality.lean`)
(python compares bound methods by object and function).  The list object `self._poc` is modelled with
its identity, because a running `for` loop keeps iterating over the list object it started with while
`flush` rebinds `self._poc` to a new list object.
-/

namespace Paramz.Observer

/-- One registration: `(priority, weakref(observer), callback)` (lists_and_dicts.py:101). -/
structure Entry (K : Type) where
  prio : K
  obs : Nat
  cb : Nat
  deriving DecidableEq, Repr

variable {K : Type} [LinearOrder K]

/-- An observable together with the python heap facts it depends on: `heap` maps the identity of a
list object to its contents, `cur` is the identity of `self._poc`, `next` a fresh identity, `alive`
tells whether a weakly referenced observer still exists, `on` is `_update_on` (observable.py:44). -/
structure St (K : Type) where
  heap : Nat → List (Entry K)
  cur : Nat
  next : Nat
  alive : Nat → Bool
  on : Bool

/-- `ObserverList.__init__` (lists_and_dicts.py:71-72), `Observable.__init__` (observable.py:40-44). -/
def init : St K := { heap := fun _ => [], cur := 0, next := 1, alive := fun _ => true, on := true }

/-- The contents of `self._poc`. -/
def St.poc (s : St K) : List (Entry K) := s.heap s.cur

/-- Store new contents in the list object `self._poc` (in-place mutation). -/
def St.setPoc (s : St K) (l : List (Entry K)) : St K :=
  { s with heap := fun i => if i = s.cur then l else s.heap i }

/-- `flush` (lists_and_dicts.py:129-133): bind `self._poc` to a new list object holding the entries
whose observer is alive. -/
def flush (s : St K) : St K :=
  { s with
    heap := fun i => if i = s.next then s.poc.filter (fun e => s.alive e.obs) else s.heap i
    cur := s.next
    next := s.next + 1 }

/-- Position found by the loop of `add` (lists_and_dicts.py:96-100): count entries until the first one
with a smaller priority. -/
def insPos (p : K) : List (Entry K) → Nat
  | [] => 0
  | e :: r => if p > e.prio then 0 else insPos p r + 1

/-- `list.insert(i, e)`. -/
def insertAt (l : List (Entry K)) (i : Nat) (e : Entry K) : List (Entry K) :=
  l.take i ++ e :: l.drop i

/-- `ObserverList.add` (lists_and_dicts.py:91-101): iterating over `self` flushes first. -/
def add (s : St K) (p : K) (o c : Nat) : St K :=
  let s := flush s
  s.setPoc (insertAt s.poc (insPos p s.poc) ⟨p, o, c⟩)

/-- The backwards deletion loop of `remove` (lists_and_dicts.py:83-86). -/
def delLoop (l : List (Entry K)) (e : Entry K) : Nat → List (Entry K)
  | 0 => l
  | n + 1 => delLoop (if l[n]? = some e then l.eraseIdx n else l) e n

/-- `ObserverList.remove` (lists_and_dicts.py:78-86): `flush`, then `len(self)` flushes again. -/
def remove (s : St K) (e : Entry K) : St K :=
  let s := flush (flush s)
  s.setPoc (delLoop s.poc e s.poc.length)

/-- Does a registration match `remove_observer(observer, callble)` (observable.py:66-71)? -/
def matchesReq (o : Nat) (c : Option Nat) (e : Entry K) : Bool :=
  match c with
  | some c => decide (e.obs = o) && decide (c = e.cb)
  | none => decide (e.obs = o)

/-- `remove_observer` (observable.py:56-73): collect the matching entries (iteration flushes), then
remove each of them. -/
def removeObserver (s : St K) (o : Nat) (c : Option Nat) : St K :=
  let s := flush s
  (s.poc.filter (matchesReq o c)).foldl remove s

/-- `add_observer` (observable.py:49-54). -/
def addObserver (s : St K) (o c : Nat) (p : K) : St K := add s p o c

/-- `change_priority` (observable.py:98-100). -/
def changePriority (s : St K) (o c : Nat) (p : K) : St K :=
  addObserver (removeObserver s o (some c)) o c p

/-- What user code (for instance a callback) can do to an observable, plus the death of an observer
that is only weakly referenced. -/
inductive Edit (K : Type)
  | add (o c : Nat) (p : K)
  | remove (o : Nat) (c : Option Nat)
  | changePriority (o c : Nat) (p : K)
  | setUpdates (b : Bool)
  | flush
  | die (o : Nat)

/-- Effect of one edit (`set_updates` is observable.py:46-47). -/
def edit (s : St K) : Edit K → St K
  | .add o c p => addObserver s o c p
  | .remove o c => removeObserver s o c
  | .changePriority o c p => changePriority s o c p
  | .setUpdates b => { s with on := b }
  | .flush => flush s
  | .die o => { s with alive := fun i => if i = o then false else s.alive i }

/-- A history of edits. -/
def edits (s : St K) (l : List (Edit K)) : St K := l.foldl edit s

/-- The loop exit test `p <= min_priority` (observable.py:94); no test when `min_priority is None`. -/
def stops (minp : Option K) (e : Entry K) : Bool :=
  match minp with
  | none => false
  | some q => decide (e.prio ≤ q)

/-- The `for` loop of `notify_observers` (observable.py:90-96) over the list object `it`, at position
`pos`. `react k` are the edits done to the observable by the `k`-th callback call. Returns the final
state and the entries called, or `none` when `fuel` rounds were not enough. A list iterator re-reads
the length of its list object each round. -/
def loop (react : Nat → List (Edit K)) (minp : Option K) (it : Nat) :
    Nat → Nat → St K → Option (St K × List (Entry K))
  | 0, _, _ => none
  | fuel + 1, pos, s =>
    match (s.heap it)[pos]? with
    | none => some (s, [])
    | some e =>
      if stops minp e then some (s, [])
      else
        match loop react minp it fuel (pos + 1) (edits s (react pos)) with
        | none => none
        | some (s', l) => some (s', e :: l)

/-- `notify_observers` (observable.py:75-96). -/
def notify (react : Nat → List (Edit K)) (minp : Option K) (fuel : Nat) (s : St K) :
    Option (St K × List (Entry K)) :=
  if s.on then
    let s := flush s
    loop react minp s.cur fuel 0 s
  else some (s, [])

end Paramz.Observer

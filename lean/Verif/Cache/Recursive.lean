import Verif.Cache.Props

/-!
# Cached functions that call themselves (C84)

`Verif.Cache.Model` supposes that the operation does not call the cacher it is cached by. Here it may: while the
operation runs, `__call__` (caching.py:149-192) is entered again, with the same dictionaries.
-/

namespace Paramz.Cache

variable {V N E R : Type} [LinearOrder N]

/-- What an operation does: return or raise, or call the cached function and go on with what comes back (an
exception may be caught). -/
inductive Prog (N E R : Type)
  | done (r : Except E R)
  | call (args : List Nat) (kw : List (N × Nat)) (k : Except (CErr E) R → Prog N E R)

/-- The body of the function: it sees its arguments and the contents of objects. -/
abbrev Body (V N E R : Type) := (Nat → Option (Obj V)) → List Nat → List (N × Nat) → Prog N E R

/-- Run a body whose calls go to `f`; `none` if the recursion is too deep. -/
def Prog.run (f : St V R → List Nat → List (N × Nat) → Option (Out V E R)) :
    Prog N E R → St V R → Option (Except (CErr E) R × St V R)
  | .done r, s => some (lift r, s)
  | .call args kw k, s => match f s args kw with
    | none => none
    | some o => (k o.res).run f o.st

/-- `ensure_cache_length` and `add_to_cache` after the operation has returned `v` (caching.py:187-190). If
`ensure_cache_length` raises, the oldest key has been taken out of the queue (caching.py:105; what a `ValueError`
leaves in `cached_input_ids` is not modelled). -/
def finish (cfg : Cfg V N E R) (s : St V R) (l : List Nat) (v : R) : Out V E R :=
  match ensureLength cfg s with
  | .error e => ⟨.error e, true, { s with order := s.order.tail }⟩
  | .ok s => ⟨.ok v, true, addToCache s (prepareId l) l v⟩

/-- `__call__` (caching.py:149-192), at recursion depth at most `n`; `none` if this is not enough, or if an
argument does not exist. Whether the inputs are new or have changed is found out before the operation runs
(caching.py:174-175). -/
def rcall (cfg : Cfg V N E R) (body : Body V N E R) :
    Nat → St V R → List Nat → List (N × Nat) → Option (Out V E R)
  | 0, _, _, _ => none
  | n + 1, s, args, kw =>
    match valsOf s.w args, kwValsOf s.w kw with
    | some _, some _ =>
      let l := combine cfg.ignore args kw
      let k := prepareId l
      let op := (body s.w.cell args kw).run (rcall cfg body n) s
      if s.enabled = false || forced cfg s.w kw || l.any (fun a => decide (kindAt s.w a = .other)) then
        op.map (fun r => ⟨r.1, true, r.2⟩)
      else match dget s.changed k with
        | some false =>
          match dget s.outputs k with
          | some v => some ⟨.ok v, false, s⟩
          | none => some ⟨.error .keyError, false, s⟩
        | some true => op.map (fun r => match r.1 with
            | .error e => ⟨.error e, true, reset r.2⟩
            | .ok v => ⟨.ok v, true, { r.2 with
                changed := dset r.2.changed k false, outputs := dset r.2.outputs k v }⟩)
        | none => op.map (fun r => match r.1 with
            | .error e => ⟨.error e, true, reset r.2⟩
            | .ok v => finish cfg r.2 l v)
    | _, _ => none

/-- One event of a user. A call returns if some depth is enough for it; a call with an argument that does not
exist does nothing. -/
def RStep (cfg : Cfg V N E R) (body : Body V N E R) (s : St V R) (u : UEv V N) (s' : St V R) : Prop :=
  match u with
  | .call args kw => (∃ n o, rcall cfg body n s args kw = some o ∧ s' = o.st) ∨
      ((valsOf s.w args = none ∨ kwValsOf s.w kw = none) ∧ s' = s)
  | u => s' = run cfg s u.events

/-- States after histories in which every call returned. -/
inductive RHist (cfg : Cfg V N E R) (body : Body V N E R) : List (UEv V N) → St V R → Prop
  | start : RHist cfg body [] init
  | next {us s u s'} : RHist cfg body us s → RStep cfg body s u s' → RHist cfg body (us ++ [u]) s'

/-! ### Without cache -/

/-- The body without cache. -/
def Prog.eval (g : List Nat → List (N × Nat) → Option (Except (CErr E) R)) :
    Prog N E R → Option (Except (CErr E) R)
  | .done r => some (lift r)
  | .call args kw k => match g args kw with
    | none => none
    | some r => (k r).eval g

/-- The function without cache. -/
def uncached (body : Body V N E R) : Nat → (Nat → Option (Obj V)) → List Nat → List (N × Nat) →
    Option (Except (CErr E) R)
  | 0, _, _, _ => none
  | n + 1, cell, args, kw =>
    match args.mapM (fun a => (cell a).map Obj.val), kw.mapM (fun p => (cell p.2).map (fun o => (p.1, o.val))) with
    | some _, some _ => (body cell args kw).eval (uncached body n cell)
    | _, _ => none

/-- The calls a body makes. -/
def Prog.calls (g : List Nat → List (N × Nat) → Option (Except (CErr E) R)) :
    Prog N E R → List (List Nat × List (N × Nat))
  | .done _ => []
  | .call args kw k => (args, kw) :: match g args kw with
    | none => []
    | some r => (k r).calls g

/-- What is called by the body of a call. -/
def callsOf (body : Body V N E R) (n : Nat) (cell : Nat → Option (Obj V)) (args : List Nat) (kw : List (N × Nat)) :
    List (List Nat × List (N × Nat)) := (body cell args kw).calls (uncached body n cell)

/-- The inputs of a call and of all calls it leads to. -/
def keysOf (cfg : Cfg V N E R) (body : Body V N E R) : Nat → (Nat → Option (Obj V)) → List Nat → List (N × Nat) →
    List (List Nat)
  | 0, _, args, kw => [combine cfg.ignore args kw]
  | n + 1, cell, args, kw => combine cfg.ignore args kw ::
      (callsOf body n cell args kw).flatMap (fun c => keysOf cfg body n cell c.1 c.2)

/-- For calls spelled as in `S`, the function without cache returns, and what it returns or raises is what `cfg.op`
says for the contents of its arguments. -/
def Means (cfg : Cfg V N E R) (body : Body V N E R) (S : Nat × List N → Prop) : Prop :=
  ∀ (w : World V) args (kw : List (N × Nat)) va vk, S (shape args kw) → valsOf w args = some va →
    kwValsOf w kw = some vk → ∃ n, uncached body n w.cell args kw = some (lift (cfg.op va vk))

/-- No call of existing objects leads to a call with the same inputs. (If all arguments are positional and none is
ignored, such a function does not return: `noSelf_of_positional`.) -/
def NoSelf (cfg : Cfg V N E R) (body : Body V N E R) (S : Nat × List N → Prop) : Prop :=
  ∀ n (w : World V) args (kw : List (N × Nat)), S (shape args kw) → valsOf w args ≠ none → kwValsOf w kw ≠ none →
    combine cfg.ignore args kw ∉
      (callsOf body n w.cell args kw).flatMap (fun c => keysOf cfg body n w.cell c.1 c.2)

/-- Calls spelled as in `S` lead to calls spelled as in `S`. -/
def SpelledBody (body : Body V N E R) (S : Nat × List N → Prop) : Prop :=
  ∀ n cell args (kw : List (N × Nat)), S (shape args kw) → ∀ c ∈ callsOf body n cell args kw, S (shape c.1 c.2)

/-- Calls with inputs in `K` lead to calls with inputs in `K`. -/
def ClosedBody (cfg : Cfg V N E R) (body : Body V N E R) (K : List Nat → Prop) : Prop :=
  ∀ n cell args (kw : List (N × Nat)), K (combine cfg.ignore args kw) →
    ∀ c ∈ callsOf body n cell args kw, K (combine cfg.ignore c.1 c.2)

/-- No call the function makes to itself raises. -/
def NeverRaises (cfg : Cfg V N E R) (body : Body V N E R) (S : Nat × List N → Prop) : Prop :=
  ∀ n (w : World V) args (kw : List (N × Nat)), S (shape args kw) → ∀ c ∈ callsOf body n w.cell args kw, ∀ va vk,
    valsOf w c.1 = some va → kwValsOf w c.2 = some vk → ∃ v, cfg.op va vk = .ok v

end Paramz.Cache

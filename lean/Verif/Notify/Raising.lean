import Verif.Notify.Told

/-!
# Updates in which `parameters_changed` raises

Source: `paramz/core/parameter_core.py:66-134, 228-250, 502-510`, `paramz/core/observable.py:75-96`,
`paramz/core/updateable.py:42-79`, `paramz/core/observable_array.py:117-119`,
`paramz/parameterized.py:310-330`.

`parameters_changed` is code of the user and may raise (a factorisation that fails, say); so may callbacks.
Nothing between the assignment and the caller catches exceptions, so the calls of `Verif.Notify.Model` are
made in their order up to and including the first that raises. The hierarchy and the constraints do not
change here; a constraint is therefore part of what turns values into the optimiser's array and that array
is described by the values it was computed from.
-/

namespace Paramz.Notify

open Hier (Heap Id upd)
open Hier.Graph (Anc)

variable {T : Type} [DecidableEq T] {V : Type}

/-- Element `k` of every `Param`. -/
abbrev Vals (V : Type) := Id → Nat → V

/-- Hierarchy and values; `seen x`: the values at the last run of `x.parameters_changed()` that came to its
end (what it computed belongs to them); `copy x`: the values `x._optimizer_copy_` was computed from, `none`
if `_optimizer_copy_transformed` is false (parameter_core.py:80-88). -/
structure Site (T V : Type) where
  s : State T
  val : Vals V
  seen : Id → Vals V
  copy : Id → Option (Vals V)

/-- Which calls raise, depending on the values they find. -/
abbrev Boom (V : Type) := Call → Vals V → Bool

namespace Site

/-- The calls one after the other (observable.py:84-96, parameter_core.py:133-134), up to the first that
raises. `_parameters_changed_notification` (parameter_core.py:507-508) forgets the optimiser's copy before
it calls `parameters_changed`. -/
def perform (boom : Boom V) (w : Site T V) : List Call → Site T V × Option Call
  | [] => (w, none)
  | .changed x :: l =>
    let w1 : Site T V := { w with copy := upd w.copy x none }
    if boom (.changed x) w.val then (w1, some (.changed x))
    else perform boom { w1 with seen := upd w.seen x w.val } l
  | .user u :: l => if boom (.user u) w.val then (w, some (.user u)) else perform boom w l

/-- The next statement, unless an exception was raised. -/
def andThen (r : Site T V × Option Call) (k : Site T V → Site T V × Option Call) : Site T V × Option Call :=
  match r.2 with
  | none => k r.1
  | some c => (r.1, some c)

/-- `m.optimizer_array = p` (parameter_core.py:103-124): the values, then `_optimizer_copy_transformed`, then
`trigger_update()`. `f`: all values afterwards. -/
def setOpt (boom : Boom V) (w : Site T V) (m : Id) (f : Vals V) : Site T V × Option Call :=
  perform boom { w with val := f, copy := upd w.copy m none } (w.s.triggerUpdate m true)

/-- `x.update_model(b)` (updateable.py:56-61): the switches, then `trigger_update()`. -/
def switch (boom : Boom V) (w : Site T V) (x : Id) (b : Bool) : Site T V × Option Call :=
  perform boom { w with s := (w.s.updateModel x b).1 } (w.s.updateModel x b).2

/-- Reading `x.optimizer_array` (parameter_core.py:80-93): the values the array stands for. -/
def optArray (w : Site T V) (x : Id) : Vals V := (w.copy x).getD w.val

end Site

/-- A call of the user; those that change values carry all the values afterwards.
`assign x`: `x[...] = v` for a `Param`. `assignAll m`: `m[...] = v` for a node. `optimizer m`:
`m.optimizer_array = v`. `randomize m`. `trigger x tp`: `x.trigger_update(tp)`. `switch x b`:
`x.update_model(b)`. `read x`: `x.optimizer_array`. -/
inductive Deed (V : Type)
  | assign (x : Id) (f : Vals V)
  | assignAll (m : Id) (f : Vals V)
  | optimizer (m : Id) (f : Vals V)
  | randomize (m : Id) (f : Vals V)
  | trigger (x : Id) (tp : Bool)
  | switch (x : Id) (b : Bool)
  | read (x : Id)

/-- Values afterwards. -/
def Deed.vals (v : Vals V) : Deed V → Vals V
  | .assign _ f => f
  | .assignAll _ f => f
  | .optimizer _ f => f
  | .randomize _ f => f
  | .trigger _ _ => v
  | .switch _ _ => v
  | .read _ => v

/-- A call of the user: the site afterwards and what raised, if anything.
`assign`: observable_array.py:117-119. `assignAll`: parameterized.py:325-330. `randomize`:
parameter_core.py:243-250 (drawing the values comes before). `read`: parameter_core.py:80-93. -/
def Site.act (boom : Boom V) (w : Site T V) : Deed V → Site T V × Option Call
  | .assign x f => Site.perform boom { w with val := f } (w.s.write x)
  | .assignAll m f => Site.perform boom { w with val := f } (w.s.triggerUpdate m true)
  | .optimizer m f => w.setOpt boom m f
  | .randomize m f =>
    Site.andThen (w.switch boom m false) (fun w1 =>
      Site.andThen (w1.setOpt boom m f) (fun w2 => w2.switch boom m (w.s.on m)))
  | .trigger x tp => Site.perform boom w (w.s.triggerUpdate x tp)
  | .switch x b => w.switch boom x b
  | .read x => ({ w with copy := upd w.copy x (some (w.optArray x)) }, none)

/-- The calls a user may make, and what they can change (as `Act.OK`): an assignment the `Param` or the
`Param`s below; the optimiser's array elements that are not fixed. -/
def Deed.OK (s : State T) (v : Vals V) : Deed V → Prop
  | .assign x f => x < s.heap.next ∧ s.heap.leaf x = true ∧
      ∀ y k, f y k ≠ v y k → y = x ∧ k < s.heap.size x
  | .assignAll m f => m < s.heap.next ∧ s.heap.leaf m = false ∧ s.heap.inInit m = false ∧
      s.heap.inited m = true ∧
      ∀ y k, f y k ≠ v y k → Anc s.heap.toGraph m y ∧ s.heap.leaf y = true ∧ k < s.heap.size y
  | .optimizer m f => m < s.heap.next ∧ s.heap.inInit m = false ∧
      ∀ y k, f y k ≠ v y k → Anc s.heap.toGraph m y ∧ s.heap.leaf y = true ∧
        k < s.heap.size y ∧ k ∉ s.heap.constraints y .fixed
  | .randomize m f => m < s.heap.next ∧ s.heap.inInit m = false ∧
      ∀ y k, f y k ≠ v y k → Anc s.heap.toGraph m y ∧ s.heap.leaf y = true ∧
        k < s.heap.size y ∧ k ∉ s.heap.constraints y .fixed
  | .trigger x _ => x < s.heap.next
  | .switch x _ => x < s.heap.next
  | .read x => x < s.heap.next

/-- Sites reached by calls some of which may have raised, from a hierarchy built by any history whose objects
are all up to date. -/
inductive Site.Past (boom : Boom V) : Site T V → Prop
  | start {s : State T} (v : Vals V) : Reach s → Past boom ⟨s, v, fun _ => v, fun _ => none⟩
  | step {w : Site T V} {d : Deed V} : Past boom w → d.OK w.s w.val → Past boom (w.act boom d).1

/-- The same with updates on from the beginning and never turned off by `update_model(False)`. -/
inductive Site.Lit (boom : Boom V) : Site T V → Prop
  | start {s : State T} (v : Vals V) : Reach s → (∀ z, s.on z = true) →
      Lit boom ⟨s, v, fun _ => v, fun _ => none⟩
  | step {w : Site T V} {d : Deed V} : Lit boom w → d.OK w.s w.val → (∀ x, d ≠ .switch x false) →
      Lit boom (w.act boom d).1

end Paramz.Notify

import Verif.Observer.Model

/-!
# Specification of observer lists: registrations in the order they were made
-/

namespace Paramz.Observer.Spec

variable {K : Type} [LinearOrder K]

/-- Registrations in registration order, and which observers are alive. -/
structure Reg (K : Type) where
  regs : List (Entry K)
  alive : Nat → Bool
  on : Bool

/-- Nothing registered. -/
def init : Reg K := { regs := [], alive := fun _ => true, on := true }

/-- Meaning of each request: registering appends at the end, removing filters. -/
def edit (s : Reg K) : Edit K → Reg K
  | .add o c p => { s with regs := s.regs ++ [⟨p, o, c⟩] }
  | .remove o (some c) => { s with regs := s.regs.filter (fun e => !decide (e.obs = o ∧ e.cb = c)) }
  | .remove o none => { s with regs := s.regs.filter (fun e => !decide (e.obs = o)) }
  | .changePriority o c p =>
    { s with regs := s.regs.filter (fun e => !decide (e.obs = o ∧ e.cb = c)) ++ [⟨p, o, c⟩] }
  | .setUpdates b => { s with on := b }
  | .flush => s
  | .die o => { s with alive := fun i => if i = o then false else s.alive i }

/-- A history of requests. -/
def edits (s : Reg K) (l : List (Edit K)) : Reg K := l.foldl edit s

/-- The registrations that can still be called, in registration order. -/
def Reg.live (s : Reg K) : List (Entry K) := s.regs.filter (fun e => s.alive e.obs)

/-- `called` is the right calling order for the registrations `l`: priorities never increase, and the
registrations of any one priority are called exactly in registration order. -/
def CallOrder (l called : List (Entry K)) : Prop :=
  called.Pairwise (fun a b => b.prio ≤ a.prio) ∧
  ∀ q : K, called.filter (fun e => decide (e.prio = q)) = l.filter (fun e => decide (e.prio = q))

end Paramz.Observer.Spec
